#!/usr/bin/env python3
# Regenerates /verif/properties.jsonl.
import json
P=[]
def p(id,title,statement,quantifier,why,anchors):
    P.append(dict(id=id,title=title,statement=statement,quantifier=quantifier,why_tests_cant=why,anchors=anchors))

p("C01","Selected fields keep the exact list/null shape of their GraphQL type",
"For a field whose introspection type is any nesting of LIST/NON_NULL around a named type, the TypeScript type text printed for a selection of that field, read with TypeScript's own precedence rules, admits exactly the JSON values GraphQL admits for that type - if and only if the type nowhere puts a non-null list directly inside a nullable list (`[[X]!]`); in that remaining case a list level is lost and the printed type is wrong.",
"every well-formed GraphQL type reference of any nesting depth, every flat type name, every JSON value",
"the nesting is unbounded; the fixture suite has two nested types and neither is on the failing side",
["src/graphql/schema/field.rs: ModifierBuilder::{actualize,listize}, TryFrom<json::FieldType> for FieldType","src/typescript.rs: single_prop_type_def, prop_type_def"])
p("C02","Input object fields keep their GraphQL type and optionality",
"In the globals file, the text printed for an input object field admits exactly the JSON values GraphQL accepts for it and carries `?` exactly when the field is nullable - if and only if the field's type has at most one list level. With two or more list levels only the innermost modifier is printed.",
"every well-formed introspection type reference of any depth whose base is a scalar, enum or input object",
"unbounded nesting; no fixture has a nested-list input field",
["src/typescript.rs: input_def_from_type, from_input_def_field_def"])
p("C03","Operation variables keep their GraphQL type and optionality",
"A variable definition is accepted exactly when its type has at most one list level and no doubled `!` and names a built-in scalar or a type in the schema; when accepted, the printed type admits exactly the GraphQL values, and the property is optional (`?`) exactly when the variable is nullable.",
"every variable type expression the parser can produce, every schema",
"the type expressions form an infinite family; only a handful appear in fixtures",
["src/graphql/variable.rs: unwrap_var_def, try_build_variable_ir","src/typescript.rs: compile_variables_type_definition, compile_variable_type_name"])
p("C04","A schema loads exactly when every type in it is well described",
"Loading introspection JSON succeeds if and only if every listed type has a known kind, the lists its kind needs (fields, inputFields, possibleTypes, enumValues), and every field's type reference ends in a named type of a known kind with `ofType` present under each LIST/NON_NULL wrapper.",
"every deserialized introspection document",
"the input space is all JSON documents; a test shows one malformed file at a time",
["src/graphql/schema.rs: TryFrom<json::Type> for Type, Schema::try_from_reader, get_fields_for_complex","src/graphql/schema/field.rs: TryFrom<json::FieldType>"])
p("C05","Looking up a type after loading returns what the JSON said",
"After a successful load, a name resolves iff the JSON lists a type with that name; it resolves to the last such entry; an object/interface answers exactly its JSON fields plus `__typename`, a union exactly `__typename`, an input object exactly its input fields; enum values and possible types are those of the JSON in order.",
"every deserialized introspection document and every name",
"needs all schemas, duplicates included",
["src/graphql/schema.rs: Schema::get_type_for_name, get_fields_for_complex, TypeDefinition::get_fields_lookup"])
p("C06","A scalar is spelled the same way everywhere",
"For any scalar, a selected field, an input object field and an operation variable of that scalar print the same TypeScript name: boolean/string/number for the five built-ins, and for custom scalars `any`, the name, or prefix+name according to the configuration.",
"every scalar name and every custom-scalar configuration",
"three separate implementations must agree for every name",
["src/typescript.rs: type_name_from_scalar, compile_custom_scalar_name, compile_variable_type_name","src/typescript/field.rs: compile_scalar","src/graphql/schema/field.rs: From<&str> for ScalarType"])
p("C07","Compilation accepts exactly the valid documents",
"For a schema whose type references are consistent, compiling a document's selections succeeds if and only if every selection written in the file itself is valid: each field exists on its enclosing type, has sub-selections exactly when its type is composite, each inline fragment has a type condition naming an object/interface/union, each spread names an imported fragment.",
"every schema, every document, every set of imported fragments on which compilation terminates",
"documents and schemas are unbounded trees",
["src/graphql/ir.rs: collect_fields_from_selection_set, insert_field, ComplexTraversal::try_from, clone_for_type_spread"])
p("C08","One run reports every invalid selection",
"Every invalid selection that is reachable in the compiled file without passing through another invalid selection is reported exactly once, in document order, with the matching kind of error (for an inline fragment on an unknown or input type the message names the type but carries no position; all other kinds carry the selection's own position); nothing is hidden because an earlier selection failed.",
"every schema, document and set of imported fragments on which compilation terminates",
"error combinations are unbounded",
["src/graphql/ir.rs: collect_fields_from_selection_set (errors vector), insert_field"])
p("C09","Diagnostics point into the file being compiled",
"Every position carried by an error or a warning from compiling a document is the position of a construct written in that document, never one inside an imported fragment.",
"every schema, document and set of imported fragments",
"depends on every path through nested foreign fragments",
["src/graphql/ir.rs: ForeignFragmentJumpState, clone_for_type_spread, collect_fields_from_selection_set"])
p("C10","Generated properties are exactly the response keys GraphQL collects",
"When a document compiles, its imported fragments are themselves valid and no response key is selected with two named types on one object type, then at every depth and for every concrete object type, the property names generated for that type are exactly the response keys that GraphQL's field collection yields for that object type (aliases, inline fragments and spreads included).",
"every schema, document, fragment set; every depth of the result; every possible concrete type",
"needs all selection trees and all type/fragment overlaps",
["src/graphql/ir.rs: UniqueFields::{insert,extend_from}, ComplexTraversal::{insert_terminal,insert_complex,extend_from}, clone_for_type_spread"])
p("C11","Generated possibilities are exactly the possible object types",
"The alternatives generated for a composite position are exactly the object types GraphQL allows there (the type itself, the interface's implementations, or the union's members), each once and in sorted order.",
"every schema, document and depth",
"unbounded schemas",
["src/graphql/ir.rs: TryFrom<(&CompileContext,&str,Pos)> for ComplexTraversal, TryFrom<ComplexTraversal> for ComplexCollection"])
p("C12","Fields of valid imported fragments are never silently dropped",
"If every imported fragment is valid on its own type, then spreading it contributes all of its fields for every overlapping object type. If an imported fragment is invalid, compiling the spreading file still succeeds and drops that fragment's fields without any message.",
"every schema, document and fragment set",
"the silent path is only visible when comparing against all fragment bodies",
["src/graphql/ir.rs: collect_fields_from_selection_set (is_local checks)"])
p("C13","Compiling selections terminates exactly when fragments do not recurse",
"Compiling the selections of a document terminates if no chain of enterable selections is infinite (in particular whenever imported fragments do not spread each other cyclically); with an infinite chain, e.g. an imported fragment that spreads itself under a recursive field, compilation never returns.",
"every schema, document and fragment set, cyclic ones included",
"non-termination cannot be observed by a finite test; acyclic depth is unbounded",
["src/graphql/ir.rs: collect_fields_from_selection_set, insert_field"])
p("C14","Over-narrowing warnings are raised exactly for spreads that can never match",
"When compilation succeeds, an over-narrowing warning for a spread or inline fragment written in the compiled file is emitted exactly when none of the object types possible at that point is possible for the fragment's type; the listed types are exactly the types possible at that point. With no foreign fragments involved this accounts for every narrowing warning.",
"every schema, document and fragment set",
"requires all overlaps of all types at all nesting levels",
["src/graphql/ir.rs: clone_for_type_spread, Warning::OverFragmentNarrowing"])
p("C15","Deprecation warnings cover exactly the deprecated fields used in the file",
"With deprecation warnings enabled, a successful compile warns exactly once for every use of a deprecated field written in the compiled file (inline fragments included), never for fields reached through imported fragments; with them disabled it never warns about deprecation.",
"every schema, document and fragment set",
"requires all placements of deprecated fields",
["src/graphql/ir.rs: insert_field, Warning::DeprecatedFieldUse"])
p("C16","Output does not depend on hash iteration order",
"The generated .graphql.d.ts text of a compiled document is the same for every iteration order of the hash tables involved, provided no response key is selected with two different named types on one object type; without that proviso the text can depend on hash order.",
"every pair of hash iteration orders, every schema and document",
"iteration order is randomised per process; a test sees one order",
["src/graphql/ir.rs: TryFrom<UniqueFields> for Vec<Field>, TryFrom<ComplexTraversal> for ComplexCollection (sort_unstable_by)","src/typescript.rs: sort_unstable calls"])
p("C17","The first selection of a response key decides its documentation and nullability",
"When a response key is selected several times with the same named type for an object type, the emitted property uses the list/null modifiers, documentation and deprecation mark of the field definition reached first in document order.",
"every schema and document",
"all orders and nestings of repeated selections",
["src/graphql/ir.rs: UniqueFields::insert (Entry::Occupied keeps field)"])
p("C18","Every exported type name is declared once",
"If no type name and no response key contains an underscore and properties are unambiguous, all type names declared in one generated file are pairwise distinct. With underscores two different positions can be given the same name.",
"every IR tree of any depth",
"name collisions depend on all pairs of paths in a document",
["src/typescript.rs: type_definitions_from_complex_field_collection, type_definitions_from_complex_ir"])
p("C19","Generated files have no dangling type references",
"Every type name referenced by a property in a generated file is either declared in the same file, imported on the globals import line, a TypeScript built-in, or a custom scalar name as configured.",
"every IR tree, schema and configuration",
"needs all trees",
["src/typescript.rs: type_definitions_from_complex_ir, compile_imports, compile_ir"])
p("C20","The globals import lists exactly the global types used",
"The names imported from the globals module are, sorted and without repetition, exactly the enums selected anywhere in the document's emitted types plus the non-scalar custom types of its variables; the same set is reported to the globals file. No globals import is printed when the set is empty.",
"every IR operation and configuration",
"needs all trees and variable lists",
["src/typescript.rs: compile_imports, compile_ir, compile_variable_type_name"])
p("C21","A property name occurs once in each generated object type",
"If on each object type every response key is selected with a single named type, each generated object type lists each property exactly once, in sorted order. Valid GraphQL that narrows a field's type in an implementation violates this: the property is emitted twice.",
"every schema and document",
"needs all selection overlaps between interface and implementation",
["src/graphql/ir.rs: FieldId keyed by (alias, type name); insert_field passes field_type_name as name"])
p("C22","Server responses inhabit the generated type",
"For a valid schema and a document that compiles with valid imported fragments, no skip/include directives, one named type per response key, no non-null list inside a nullable list, and, wherever object types have the same response keys, the same fields under them all the way down, every response a spec-conforming GraphQL server can return for the document inhabits the generated TypeScript type.",
"every schema, document, fragment set and every response value",
"responses are an infinite set; needs a semantics of both sides",
["src/graphql/ir.rs","src/typescript.rs: type_definitions_from_complex_field_collection, type_definitions_from_complex_ir, prop_type_def"])
p("C23","Merging look-alike alternatives is only safe when their bodies agree",
"Object types with the same set of property names are merged into one generated alternative using one representative's property types. This preserves the admitted values when the merged types have equal bodies, which is the case if and only if in the document, wherever object types have the same response keys, they have the same fields under these keys all the way down (so always if the document uses no fragments); it is unsound for valid GraphQL in which two object types select different sub-fields under the same key.",
"every collection of alternatives",
"all combinations of alternatives",
["src/typescript.rs: type_definitions_from_complex_field_collection (repeated_possiblities), type_definitions_from_smoosh_complex_ir"])
p("C24","__typename discriminates correctly",
"Where __typename is selected for all alternatives, the string literals admitted by the generated alternatives' __typename properties are exactly the possible object type names, and no name is admitted by two different alternatives.",
"every collection of alternatives of any size",
"any number of alternatives and any merging pattern",
["src/typescript.rs: type_definitions_from_complex_field_collection, type_definitions_from_smoosh_complex_ir"])
p("C25","Schema descriptions cannot break out of the generated doc comment",
"The emitted doc comment contains the comment terminator `*/` only at its very end, exactly if no line of the description, after removal of `/*`, contains `*`, then `*/` one or more times, then `/`; so a description containing `**//` does break out.",
"every description string",
"all strings",
["src/typescript.rs: compile_documentation"])
p("C26","readonly and @deprecated markers are printed exactly when asked for",
"Every property of every generated object type starts with `readonly ` iff readonly types are enabled, and a property's doc comment contains the generated `@deprecated` line iff the field is deprecated.",
"every IR tree and configuration",
"every property in every tree",
["src/typescript.rs: type_definitions_from_complex_ir, compile_documentation"])
p("C27","Arguments and directives never influence the output",
"Changing or removing arguments and directives anywhere in a document or its fragments changes neither the generated text nor any diagnostic. As a consequence a field under @skip/@include is typed as always present although a response may omit it.",
"every document and fragment set",
"all documents",
["src/graphql/ir.rs: insert_field, collect_fields_from_selection_set (arguments/directives never read)"])
p("C28","The default export has the right document type",
"The default export of a generated file is annotated with QueryDocumentNode/MutationDocumentNode (data type and variables type, `never` without variables) or FragmentDocumentNode (data type only) according to the definition compiled; a subscription is resolved against the Query type and annotated QueryDocumentNode.",
"every definition that compiles",
"all definitions and names",
["src/graphql/ir.rs: build_from_operation, From<&str> for OperationKind","src/typescript.rs: compile_ir"])
p("C29","The variables type lists every declared variable once, sorted",
"A generated file has a `<Name>Variables` type iff the operation declares at least one variable; its properties are exactly the declared variables in sorted order.",
"every operation",
"any number of variables",
["src/typescript.rs: compile_variables_type_definition","src/graphql/variable.rs: try_build_variable_ir"])
p("C30","The globals file declares exactly the reachable global types",
"When it is written, the globals file declares, sorted by name and once each, exactly the types reachable from the used global names by following input object fields to enums and input objects; and nothing is written when no global is used.",
"every schema without recursive input objects, every set of used names, every hash order",
"transitive closure over arbitrary schemas",
["src/typescript.rs: global_types_from_names, add_sub_input_objects, add_sub_input_object_field","src/graphql.rs: compile_global_types_file"])
p("C31","Collecting global types terminates exactly when input objects do not recurse",
"Collecting the globals terminates when input object references are well-founded; if an input object reaches itself through input fields (legal GraphQL) and is used, the collection never returns.",
"every schema, every used name",
"non-termination is not observable by tests",
["src/typescript.rs: add_sub_input_objects, add_sub_input_object_field"])
p("C32","Only enums and input objects can become globals",
"Writing the globals file fails with an error, and writes nothing, if a used global name is missing from the schema or is not an enum or input object, or if a reachable input field is neither a scalar, an enum nor an input object.",
"every schema and set of used names",
"all schemas",
["src/typescript.rs: global_types_from_names (NotGlobalType, MissingType, InvalidFieldDef)"])
p("C33","Imports are read exactly from the leading comment block",
"The import lines honoured in a file are exactly the lines starting with `#import \"` in the longest prefix of lines that are blank or start with `#`; any later import line is ignored.",
"every file content",
"all texts",
["src/graphql.rs: add_imported_fragments"])
p("C34","Import paths resolve by prefix, root, or current directory",
"An import path that starts with the configured root prefix resolves under the root directory with the prefix removed; otherwise a path starting with `.` resolves against the importing file's directory and any other path against the root directory. An absolute text (also an absolute remainder such as `/x` of `@/x` with prefix `@`) stands for itself and leaves the root directory.",
"every path text, configuration and importing file",
"all strings and configurations",
["src/graphql.rs: get_file_path_of_fragment"])
p("C35","The import closure is complete and nothing else is loaded",
"When import scanning terminates, the loaded files are exactly the readable files reachable from the document by import lines, and an error located at the import line is reported for each unreadable import encountered.",
"every file system content and import graph",
"transitive closure over arbitrary graphs",
["src/graphql.rs: add_imported_fragments"])
p("C36","Import scanning terminates exactly when imports do not recurse",
"Import scanning terminates when import chains are finite and never returns when a readable file reaches itself through imports, unless an unterminated import line met on the way crashes it first.",
"every file system content",
"non-termination is not observable by tests",
["src/graphql.rs: add_imported_fragments"])
p("C37","Only an unterminated import line can crash import resolution",
"Resolving an import line panics exactly when the line contains no second double quote after `#import \"`.",
"every line starting with `#import \"`",
"all strings",
["src/graphql.rs: get_file_path_of_fragment (slice bounds)"])
p("C38","Fragment scope is independent of hash order when names are unique",
"If no two imported files define the same fragment name, the fragments in scope and the set of messages do not depend on hash iteration order; with a duplicate name either definition may win.",
"every set of imported files, every pair of hash orders",
"iteration order is randomised",
["src/graphql.rs: parse_foreign_fragments"])
p("C39","Importing an operation is always reported",
"Every imported file whose single definition is an operation yields an error naming the compiled file; every imported file with a single fragment definition adds that fragment to the scope; unparseable or multi-definition imports add nothing.",
"every set of imported files",
"all file contents",
["src/graphql.rs: parse_foreign_fragments, parse_graphql_file"])
p("C40","Output paths are unique and never overwrite a source",
"The output path of a source `x.graphql` is `x.graphql.d.ts` in the same directory; distinct sources have distinct outputs, and no output path has the `graphql` extension, so no source file is overwritten and no output is ever picked up as a source.",
"every path",
"all pairs of paths",
["src/graphql.rs: compile_file (with_extension)","src/worker_pool.rs: run_dir_entry (extension check)"])
p("C41","A failed compile writes nothing",
"Compiling a file performs at most one write, to its own output path, and none at all if reading, parsing, validating or generating failed; if it reports success without error the file on disk holds exactly the generated text.",
"every file system, schema, configuration",
"all failure points",
["src/graphql.rs: compile_file"])
p("C42","Diagnostics survive to the report",
"Messages gathered while compiling a file (import errors, IR errors, warnings) all appear in its result, unless writing the output fails, in which case only the write error is reported.",
"every file system, schema, configuration",
"all failure points",
["src/graphql.rs: compile_file (map_err on write drops messages)"])
p("C43","Exit status is 0 exactly when no error was reported",
"The process exits with 0 iff none of the messages is an error (warnings do not count), and the failure summary, when printed, states the number of error messages.",
"every list of messages",
"any number and mix of messages",
["src/cli.rs: print_exit_info"])
p("C44","Summary counts and plurals",
"The warning summary is printed iff there is a warning and states the right count; its plural `s` follows the number of errors instead of warnings, so it is right iff (warnings>1) = (errors>1).",
"every list of messages",
"any counts",
["src/cli.rs: print_exit_info (plural uses error_count)"])
p("C45","Configuration precedence",
"Each setting takes the command line value if given, otherwise the config file value, otherwise the default; boolean flags are the disjunction of both; a relative schema path in the config file resolves against the config file's directory; the default schema path is <root>/schema.json.",
"every combination of arguments and config file contents",
"the product of all optional settings",
["src/cli.rs: RuntimeConfig::from_cli, ConfigFileMatches::from_file_parse"])
p("C46","Custom scalar prefix",
"A config-file customScalarPrefix takes effect exactly when the config file itself sets useCustomScalars (to anything), custom scalars are enabled by either source, and no prefix is given on the command line.",
"every combination of the four settings involved",
"interaction of four optional settings",
["src/cli.rs: RuntimeConfig::from_cli, bottom_type_config"])
p("C47","The caret points at the reported column",
"In a rendered diagnostic with a location, the `^` stands exactly under the reported column of the quoted source line, for every line number width.",
"every line number, column and source line",
"all widths",
["src/cli.rs: LocationInformation::fmt_line_encoding, SourceInformation::fmt_file"])
p("C48","Suggestions list exactly the near names",
"The `Did you mean` help lists exactly the candidate names at edit distance below 3 and is absent when there is none.",
"every name, candidate list and distance function",
"all names",
["src/cli.rs: similar_help_suggestions"])
p("C49","Worker counters never drift",
"At every moment the shared waiting/quitting counters equal the number of workers whose flag is set so they never exceed the thread count and never underflow.",
"every number of threads and every interleaving",
"all interleavings",
["src/worker_pool.rs: Worker::{set_waiting,set_quitting}"])
p("C50","No file is processed twice or invented",
"At every moment the files compiled so far together with the files still owed by queued, in-flight or unsent work are a permutation of the .graphql files of the directory tree; in particular no file is compiled twice.",
"every directory tree, number of threads and interleaving",
"all interleavings",
["src/worker_pool.rs: Worker::run, pop_work, Work::run_dir_entry"])
p("C51","When all workers exit, every file was compiled",
"If all workers have exited then every .graphql file of the tree was compiled, provided no worker ever decided to send Quit while work was queued or in a worker's hands; with one thread this always holds; with two threads there is an interleaving in which all workers exit, a file is never compiled and no error is reported. The race is in one place only: such a decision happens exactly if a worker decides to quit between the moment another worker takes work from the channel and the moment that worker is counted as busy; if no worker takes a turn there, every file is compiled whatever the number of threads. The race never loses a file of the root directory itself, so a project without subdirectories is always compiled completely; but with more than one thread and compiles that return, any subdirectory of the root that has files can be lost as a whole, everything else being compiled. So whatever the program prints, exits with and leaves on the disk with one thread on a project, it can print, exit with and leave with two or more threads on the same project with one more subdirectory, in particular exit with status 0 having written none of that subdirectory's outputs.",
"every directory tree, thread count and interleaving",
"a race visible only under specific interleavings",
["src/worker_pool.rs: pop_work (Quit protocol)"])
p("C52","The pool can always finish",
"From every state reachable without a panic, some continuation makes all workers exit: there is no deadlock and no livelock that cannot be left.",
"every directory tree, thread count and reachable state",
"deadlock freedom over all interleavings",
["src/worker_pool.rs: pop_work"])
p("C53","A panicking worker hangs the program",
"If a worker panics while compiling, no worker that has not exited by then can ever exit; so unless each of them panics too, the program never terminates.",
"every state after a panic, every interleaving",
"non-termination is not observable by tests",
["src/worker_pool.rs: pop_work, WorkerPool::work (thread::scope)"])
p("C54","Zero threads do nothing and succeed",
"With a thread count of zero no file is compiled, no output is written and the exit status is 0, whatever the directory contains.",
"every directory tree",
"all trees",
["src/worker_pool.rs: WorkerPool::work","src/cli.rs: num_threads"])
p("C55","Aggregated results do not depend on the schedule",
"In any run in which all workers exit with no work left, the set of global types passed on is exactly the union over all files and the reported messages are a permutation of the concatenation over all files and unreadable directories.",
"every tree, thread count and interleaving",
"all interleavings",
["src/worker_pool.rs: WorkAggregateResult, Worker::run, WorkerPool::work"])
p("C56","Directory walk finds exactly the .graphql files",
"The files handed to the compiler are exactly the regular files with extension `graphql` reachable from the root through real directories; symbolic links and files such as `.graphql` are not picked up.",
"every directory tree",
"all trees and names",
["src/worker_pool.rs: run_dir_entry"])
p("C57","Generated files do not depend on the schedule",
"If nothing that is read is an output or the globals file and different sources have different outputs (so in every ordinary project, C114), then whatever the number of threads and the order in which files are compiled, the files on disk at the end are the same, provided no work is lost (C51).",
"every file system, every compile order",
"all interleavings",
["src/worker_pool.rs","src/graphql.rs: compile_file"])
p("C58","Running twice changes nothing",
"If nothing that is read is generated, different sources have different outputs (so in every ordinary project, C114) and no text depends on hash orders (imported fragments are valid and have different names, no response key has two types, no variable is declared twice), then a second run over the result of a first run leaves every file as it is, whatever the schedules and hash orders of the two, provided no work is lost in either (C51).",
"every file system",
"all file systems",
["src/graphql.rs: compile_file","src/worker_pool.rs"])
p("C59","The generated object text parses back to the intended declarations",
"The property type text printed for any combination of modifiers parses, under TypeScript's grammar for unions, arrays and parentheses, to the intended type: nested modifiers never change meaning through precedence.",
"every sequence of modifiers and every flat name",
"precedence mistakes appear only in certain nestings",
["src/typescript.rs: single_prop_type_def, prop_type_def"])
p("C60","Enum declarations list exactly the schema's values",
"A generated enum has exactly one member `V = \"V\"` per schema value, sorted.",
"every enum",
"all value lists",
["src/typescript.rs: enum_def_from_type"])
p("C61","The non-fragment import error quotes a line of the file it names only for direct imports",
"The error for an imported document that is not a fragment names the compiled file; the line it quotes is an import line of the compiled file whenever no imported file imports that document too. For a document imported only by an imported file, the error names the compiled file but quotes a line of the other file.",
"every file system content and import graph",
"import graphs of any shape and depth",
["src/graphql.rs: add_imported_fragments, parse_foreign_fragments"])
p("C62","The introspection document is read by key",
"The schema is read from `data.__schema.types` and the documented members of types, fields and type references; optional members may be absent or null. A document with a missing or repeated needed member, or one of the wrong type, is rejected. Any other members, and the order of members, change nothing.",
"every JSON tree, however deep its type references",
"introspection results differ between servers in member order and extra members; the space of trees is unbounded",
["src/graphql/schema/json.rs: Schema, Type, Field, FieldType"])
p("C63","The configuration file is read by key",
"Nine optional settings are read by key, with their types checked; other members are ignored without a message. That includes `schemaPath`, the camelcased name of the `--schema-path` option: the setting is called `schemaFile`.",
"every JSON tree",
"all trees, orders of members and extra members",
["src/cli.rs: ConfigFileMatches"])
p("C64","A run that is stopped at any point damages no source file",
"If the program is killed between any two system calls, including in the middle of writing a file, then every file that is not an output of a file of the tree and not the globals file is as before the run. If moreover nothing that is read is an output and outputs are distinct, every output is as before or holds the first bytes of what compiling its source alone writes; likewise the globals file.",
"every file system, tree, schedule of the workers, sizes of partial writes, and point of interruption",
"a test cannot stop the program at every system call of every interleaving",
["src/worker_pool.rs: run, run_dir_entry","src/graphql.rs: compile_file, compile_global_types_file"])
p("C65","Running again after an interruption repairs the outputs",
"Under the provisos of C58, if the program is run any number of times, each time stopped at any point, and is then run to the end, the files are those that a single undisturbed run leaves.",
"every file system, number of interrupted runs, schedules of all runs, hash orders, points of interruption",
"all crash points and interleavings",
["src/worker_pool.rs: run","src/graphql.rs: compile_file, compile_global_types_file"])
p("C66","Interleaved file operations of the workers do not interfere",
"When several workers read and write files at the same time, the results are those of compiling the files one after the other in some order: same messages, same files.",
"every interleaving of single reads, opens and partial writes, every file system in which outputs are distinct and not read",
"all interleavings of system calls",
["src/worker_pool.rs: run, run_dir_entry","src/graphql.rs: compile_file"])
p("C67","Generated types are named after the place in the response",
"The name of a generated object or union type is the name of the operation or fragment followed by the capitalised response names on the path to it; where a selection yields several alternatives, the alternative of an object type has that type's name appended, and the alternatives that select exactly the fields shared by all are given one common type.",
"every schema and every document",
"all nestings and combinations of alternatives",
["src/typescript.rs: type_definitions_from_complex_field_collection, compile_ir"])
p("C68","A file is generated exactly for the valid documents whose abstract types have members",
"Code generation fails for a document that compiles only if a selection is made on an abstract type that no object type belongs to; otherwise a file is generated, in which no union is empty. An interface without implementors is valid GraphQL but no file is generated for a query that selects on it.",
"every schema and every document",
"all schemas and documents",
["src/typescript.rs: compile_ir","src/graphql/ir.rs: Field, Complex"])
p("C69","Options take effect in the generated files",
"The file written when a source is compiled is the one the settings ask for, where a setting is taken from the command line or else from the configuration file: readonly markers, custom scalars and their prefix, the module of the global types and of the document node types. Deprecation warnings are printed, one for each use of a deprecated field, exactly if they are asked for. The root directory and the import prefix decide which file an import names.",
"every command line, configuration file, schema, file system and source file",
"options interact; all combinations with all documents",
["src/cli.rs: RuntimeConfig, RuntimeConfig::from_cli","src/graphql.rs: CompileConfig, compile_file","src/typescript.rs: compile_ir"])
p("C70","The globals module is written where generated files import it from",
"If the last component of the configured module name has no dot, the globals are written to the file with that name and the suffix `.ts` below the root directory, where the import prefix at the start of the name stands for the root directory. No other file is written. If the last component has a dot after its first character, the file has exactly the configured name. With a prefix that lacks the slash (`@` for `@/globals`) the file is written outside of the root directory.",
"every module name, prefix and root directory",
"all names: dots, slashes and prefixes interact",
["src/graphql.rs: compile_global_types_file"])
p("C71","Under a fair scheduler the workers always finish",
"If no compile panics or hangs and the operating system gives every worker thread a turn again and again, all workers exit after finitely many steps, whatever the schedule. With one thread every file of the tree has then been compiled exactly once; with more, unless some worker decided to quit while work was left.",
"every directory tree, thread count and every fair infinite schedule",
"liveness is a property of infinite executions; no finite number of test runs shows the absence of livelock",
["src/worker_pool.rs: Worker::run, pop_work, WorkerPool::work"])
p("C72","An unusable configuration or schema stops the program",
"If the command line and the configuration file cannot be combined, or the schema file cannot be read, is not JSON of the expected shape, or lists a type that lacks what its kind needs, then the program prints exactly one error that says what is wrong (the first fault in the order of the file), exits with status 1 and writes nothing. Conversely a schema file in which every type has what its kind needs is loaded.",
"every command line, configuration file, schema file and file system",
"all ways in which an introspection document can be incomplete, alone or together",
["src/main.rs: main","src/graphql/schema.rs: parse_schema, Schema::try_from_reader, TryFrom","src/cli.rs: RuntimeConfig::from_cli"])
p("C73","Descriptions of fields are carried over faithfully",
"The comment above a property holds the lines of the schema's description of the field in order, trimmed, without the blank ones (one empty line if all are blank), and a deprecation mark exactly if the schema deprecates the field; no comment is printed if there is neither.",
"every description text and deprecation",
"all texts, all kinds of white space and line ends",
["src/graphql/schema.rs: Documentation","src/typescript.rs: compile_documentation"])
p("C74","Exit status 0 means that everything was generated",
"If nothing that is read is an output or the globals file and different sources have different outputs (so in every ordinary project, C114), then after a run in which no work is lost, the program prints exactly the messages about directories that cannot be listed, the messages that compiling each file of the tree alone gives, and at most one about the global types. Its status is 0 exactly if every directory can be listed, no file has an error, all global types used are valid and the globals file can be written. With status 0 the output file of every source holds what is generated from it, and the globals file declares the global types used. With one thread no work is ever lost.",
"every directory tree, file system, schema, thread count, schedule and hash order",
"end-to-end claim over all trees, schedules and failures of system calls",
["src/main.rs: main","src/cli.rs: print_exit_info","src/worker_pool.rs: WorkerPool::work","src/graphql.rs: compile_file, compile_global_types_file"])
p("C75","A generated file is a TypeScript module",
"If the names of the schema and of the document are names that TypeScript lets a module use, and no description closes its comment, then the text of every generated file is read by a TypeScript grammar as: imports of the document node type and of the global types, one exported type for each object or union type of the response, the type of the variables, the declaration of the document, its default export, and nothing else. The tool does not check that the name of an operation can be declared: `query delete` or `query string` compiles without an error and the file is not TypeScript.",
"every schema, document, setting and set of imported fragments",
"all texts; a test reads a few files, and the compiler of TypeScript is not run by the tests",
["src/typescript.rs: compile_ir, compile_documentation, compile_imports","src/graphql/ir.rs: Operation::compile"])
p("C76","The text of a generated file admits what a server answers, and nothing else",
"Read as a TypeScript module, the exported type named after the operation admits every response a conforming server may give; and under the provisos about names and merging it admits exactly the values of the alternatives of the selection.",
"every schema, document, response value and hash order",
"all responses and all texts; composition of code generation with the meaning of TypeScript types",
["src/typescript.rs: compile_ir, type_definitions_from_complex_field_collection, prop_type_def","src/graphql/ir.rs: collect_fields"])
p("C77","Names in a generated file resolve, and resolve to one thing",
"Every type that is mentioned in the text of a generated file is declared or imported by it, belongs to TypeScript, or is a custom scalar of the schema under the configured name. No type name is declared or imported twice, if object types and response keys have no underscores and neither an imported global nor the document node type has the name of a generated type. That last proviso is not checked: an operation called like an enum that it selects gives a file that imports and declares the same name.",
"every schema, document, setting and set of imported fragments",
"all combinations of names",
["src/typescript.rs: compile_ir, compile_imports"])
p("C78","The globals file is a TypeScript module",
"If the names of enums, input objects and their fields are names that TypeScript lets a module use, and no description closes its comment, then the text of the globals file is read by a TypeScript grammar as one exported declaration for every global type and nothing else, sorted by name: an enum with exactly the values of the schema's enum, or an object type with one property for every input field.",
"every schema, set of used types, setting and hash order",
"all texts; the compiler of TypeScript is not run by the tests",
["src/typescript.rs: compile_globals, global_types_from_names, enum_def_from_type, input_def_from_type"])
p("C79","The types of the globals file admit what a server takes as input",
"Read as a TypeScript module, the type exported for an enum or input object admits every value that a server takes for it, at every depth of nesting, and, if the names of the scalars admit exactly the values of the scalars, no other value. (Types with one list level; see C02.)",
"every schema, set of used types, setting, input value and hash order",
"all schemas and all input values; composition of code generation with the meaning of TypeScript types",
["src/typescript.rs: compile_globals, from_input_def_field_def, enum_def_from_type"])
p("C80","The variables type admits what a server takes for the variables",
"Read as a TypeScript module together with the globals file it imports, the exported type of the variables of an operation admits every object of variables that a server takes, and, if the names of the scalars admit exactly the values of the scalars, no other object - except that default values are ignored: a variable of a non-null type with a default value may be left out for a server, but not for the generated type.",
"every schema, document, setting, object of variables and hash order",
"all values of variables, and two generated files that refer to each other",
["src/graphql/variable.rs: try_build_variable_ir, unwrap_var_def","src/typescript.rs: compile_variables_type_definition, compile_globals"])
p("C81","The file of an operation and the globals file fit together",
"Every response of a server is admitted by the exported type of the file of an operation when the enums mean what the globals file of the same run says; nothing has to be assumed about them.",
"every schema, document, setting, response value and hash order of either file",
"all responses, and two generated files that refer to each other",
["src/typescript.rs: compile_ir, compile_globals, compile_imports","src/graphql.rs: compile_global_types_file"])
p("C82","Every invalid selection is explained where it stands",
"If a file holds one definition with invalid selections, nothing is written and the following is printed about it, in this order and nothing else: the texts about its imports; for every invalid selection, in document order, a text that says what is wrong with it, gives the path, line and column, quotes the line, marks the column, and suggests exactly the names that are close; and the warnings. Exception: an inline fragment on a type that is not in the schema is called a program error, without path or line.",
"every schema, document, text, set of imported fragments and hash order",
"all documents with any number of mistakes in any place; tests compare a few messages",
["src/cli.rs: Message, Source, similar_help_suggestions","src/graphql/ir.rs: Error, collect_fields","src/graphql.rs: compile_file"])
p("C83","Warnings are printed for what they are about, where it stands",
"If a file is compiled, exactly this is printed about it: the texts about its imports, and a warning for every fragment that can never match and, if asked for, for every use of a deprecated field, each kind in document order, naming the type or field concerned, with path, line, column, the quoted line and the marked column.",
"every schema, document, text, set of imported fragments and hash order",
"all documents; tests compare a few messages",
["src/cli.rs: Message, Source","src/graphql/ir.rs: Warning","src/graphql.rs: compile_file"])
p("C84","What is printed about a file that cannot be used",
"A file that is unreadable, has a syntax error, is empty or holds several definitions gives exactly one text that says so, with the place of the second definition. Unreadable includes every file whose bytes are not the UTF-8 encoding of some text. A plain selection set, a root type without fields, the first variable that cannot be used, a failure to write, and a selected interface or union without possible types each give exactly one text besides those about imports and the warnings. Several of these texts mislead: an empty file and a type without possible types are reported without a path, the text about a variable of unknown type gives the name of the type as that of the variable, lists of non-null lists are reported as a probable bug, and a globals file that cannot be written is reported under the name of the root directory.",
"every schema, file contents, parse result and failure of reading or writing",
"all files and all failures of the file system",
["src/graphql.rs: compile_file, read_graphql_file, parse_graphql_file","src/graphql/ir.rs: Error, Operation::compile","src/graphql/variable.rs: Error"])
p("C85","Installing the npm package runs only a verified binary",
"Whatever the servers answer, however often they redirect, whatever fails and wherever the script is stopped, the post-install script unpacks at most one tarball, and only one with the SHA-256 digest that package.json lists for the platform - as long as no other program changes the tarball. Exit status 0 means that qlc was unpacked and made executable, with one exception: a download that breaks off also ends with status 0 and nothing installed. Unless it is that exception, status 0 also means that tar ended with status 0. The release that is downloaded is the one for the processor and the system of the machine. Platforms without a release are refused with nothing touched; a tarball with another digest is removed.",
"every sequence of answers, chunks, failures and completions of file operations, in every order the event loop allows",
"all interleavings of the callbacks and all faults of network and file system",
["pkg/npm/lib/postinstall.js"])
p("C86","Downloading a schema",
"Status 0 of the download script means that the server answered with status 200 and that the file holds what came of the body; the body is complete unless the connection broke, in which case part of a schema is left with status 0. At every moment the file is gone, holds what came of the new body, or is the old file as long as it has not been opened; a failing request deletes the schema that was there before. Without an endpoint nothing is touched.",
"every sequence of answers, chunks, failures and completions of file operations",
"all interleavings and faults; a test shows one",
["pkg/npm/lib/download.js: download"])
p("C87","A downloaded schema is the server's schema",
"What a server answers to the introspection query, read by qlc, is what the server says about itself, if no type is wrapped in more than seven lists and non-nulls; it can be loaded exactly then. Exceptions: the query does not ask which fields are deprecated, so with a downloaded schema nobody is ever warned about deprecation; and the name of the query type is downloaded but not used, so that if no type is called Query no query compiles.",
"every server that follows the introspection section of the GraphQL specification",
"all schemas, type references of any depth, and the composition of a query, a server, a JSON reader and a schema loader",
["pkg/npm/lib/download.js: introspectionQuery","src/graphql/schema/json.rs","src/graphql/schema.rs"])
p("C88","The types of the npm package fit the generated files",
"Read as a TypeScript module, every generated file imports the type of its default export from the configured module; the npm package exports a type of that name; the file gives it as many type arguments as it has parameters; and each argument is never, or names an object type or union of object types declared in the file, as the constraint of the parameters demands.",
"every schema, document, setting and hash order",
"all documents; two artefacts that are written in different languages have to agree",
["pkg/npm/lib/typed-documentnode.d.ts","src/typescript.rs: compile_ir, compile_imports"])
p("C89","What a successful run leaves on the disk",
"When a run over a directory ends with status 0, then, however its threads were scheduled: for every GraphQL file there is an output file with a TypeScript module, and the globals file is a module too or no file uses a global. Every response that a server gives to the operation belongs to the data type that the module on the disk exports, and every object of variables that a server takes belongs to its variables type, where imported names mean what the globals file on the disk says. The schema and the document must avoid the defects reported in C01, C02, C21 and C23, their names must be writable in TypeScript, and what the document imports must lie in the tree.",
"every schema, tree, configuration, schedule, number of threads, response and object of variables",
"the composition of the whole program: parsing of arguments aside, from files to files, over all schedules and all responses",
["src/main.rs: main","src/graphql.rs: compile, compile_file","src/typescript.rs","src/typescript.rs: compile_globals"])
p("C90","After a successful run the imported fragments are valid",
"A file's own compilation does not check the fragments that it imports beyond what it uses of them. When a whole run ends with status 0 and all that a file imports, directly or not, lies in the tree, every fragment in its scope is valid against the schema with the fragments of this scope.",
"every tree, configuration, schedule, number of threads and file",
"the fragments are checked by other threads in other scopes; that these checks carry over has to hold for all trees",
["src/main.rs: main","src/graphql.rs: compile_file, parse_foreign_fragments","src/graphql/ir.rs: Operation::compile"])
p("C91","Two runs over the same files report the same",
"Run the program twice over the same files, with any hash orders, numbers of threads and schedules, so that no work is lost. If imported fragments are valid and have different names, no response key has two named types and no variable is declared twice, both runs leave the same files and exit with the same status. If the global types can be generated, both print the same texts, each as often, up to the order of the texts and of the names listed inside a text.",
"every tree, file system, configuration, schema, pair of hash orders, thread counts and schedules",
"hash orders and schedules differ from run to run and cannot be enumerated",
["src/main.rs: main","src/worker_pool.rs: work, aggregate","src/graphql.rs: compile_file, parse_foreign_fragments","src/graphql/ir.rs: collect","src/cli.rs: print_exit_info, similar_help_suggestions"])
p("C92","The data type admits exactly the possible responses",
"The converse of C81: a value belongs to the generated data type only if some server, with some data, could answer the operation with it; so the type admits exactly the possible responses. After a successful run this holds of the module on the disk. It needs that implementations do not narrow the types of interface fields, that no two keys ask for __typename where object types share a printed type, and that the type of a scalar admits only the values of the scalar (not any): without each of these the type admits more, as three examples show.",
"every schema, document, configuration and value",
"all values and all schemas; a test can show that a value is admitted, not that no others are",
["src/typescript.rs","src/typescript.rs: type_definitions_from_complex_ir","src/graphql/ir.rs: Collection"])
p("C93","The command line",
"The program accepts exactly the command lines made of the options in its help text, each at most once, in any order and in every usual way of writing them (long with a blank or =, short with a blank, = or nothing), with at most one directory, which may stand after --, and a scalar prefix only together with custom scalars; its arguments are then what the options say. A word that asks for help or the version after valid settings shows that and ends with status 0; everything else ends with status 2 before any file is touched. --no-color switches all colours off.",
"every list of words",
"all command lines; the readings of a word depend on what stands before it",
["src/cli.rs: CliArgs, RuntimeConfig::from_cli","src/main.rs: main"])
p("C94","From the server to the types",
"When a schema file holds what a server answered to the query of the download script (no type wrapped more than seven times), and the program is started with a command line that names that file and one thread and ends with status 0, then every GraphQL document of the searched tree has its output file; for a schema and document of the supported kind, the exported data type admits every response of that server, exactly these if no condition of exactness is violated, and the variables type admits exactly the objects of variables the server takes, under the settings that the command line and the configuration file mean.",
"every server, command line, configuration file, file tree, document, response and object of variables",
"composes the download, the command line, the configuration, the schema reader, the pool, the compiler and the writer; all servers and all documents",
["pkg/npm/lib/download.js: introspectionQuery","src/main.rs: main","src/cli.rs: RuntimeConfig::from_cli","src/worker_pool.rs","src/graphql/schema.rs"])
p("C95","Documents that ask for the same data generate the same file",
"Take two definitions of the same sort and name with the same variables that both compile, possibly against different schemas, with different imported fragments and hash orders. If at every depth they ask the same object types for the same response keys, with values of the same kind and the same documentation, and the schemas agree which variable types are scalars, the generated texts and the global types used are the same.",
"every pair of schemas, definitions, fragment scopes, settings and hash orders",
"a relation between all pairs of programs; a test compares one pair",
["src/graphql/ir.rs: Operation::compile, Collection","src/typescript.rs: compile_ir"])
p("C96","Tidying a document leaves the generated file as it is",
"Reordering selections that have no response key in common, replacing a fragment spread by the fragment or the reverse, unwrapping or adding an inline fragment on the surrounding type, removing an inline fragment that can never apply, removing repetitions, merging neighbouring selections of one field or neighbouring inline fragments on one type, changing arguments, directives and line breaks, at any depth and in any sequence, does not change the generated text; unused imports may be removed too. Swapping two selections of the same key may change the documentation, as an example shows.",
"every schema, document and sequence of edits",
"all documents and all sequences of edits",
["src/graphql/ir.rs: collect_fields, Collection","src/typescript.rs: compile_ir"])
p("C97","A schema that only grows does not change the generated files",
"When a new introspection result keeps the kind of every type, every field of object types and interfaces as it was, and the object types of every interface and union, and otherwise adds types, fields, enum values and input fields, then every definition that compiled still compiles, whatever the hash order, and generates the same text. A new implementation of an interface is not such an addition: an example shows a changed file.",
"every pair of valid introspection documents, every definition and hash order",
"all schemas and all extensions of them",
["src/graphql/schema.rs: TryFrom","src/graphql/ir.rs: Operation::compile","src/typescript.rs: compile_ir"])
p("C98","Running again after the schema has grown",
"Let a run end with status 0, let the schema grow as in C97, and let a second run over the same files complete, with any hash orders, numbers of threads and schedules. If imported fragments are valid and have different names, no response key has two named types and no variable is declared twice, the second run ends with status 0 too, uses the same global types and leaves every file but the globals file with the same contents; if no enum or input object changed, the globals file too.",
"every tree, configuration, pair of schemas, hash orders, thread counts and schedules",
"two whole runs, over all schemas, trees and schedules",
["src/main.rs: main","src/worker_pool.rs: work, aggregate","src/graphql.rs: compile_file, compile_global_types_file","src/graphql/schema.rs"])
p("C99","An edit changes only the outputs that depend on it",
"Let a run complete, edit, add and remove files, and let a second run complete, with any hash orders, numbers of threads and schedules. A file then has other contents than before the edit only if it was edited, is the globals file, or is the output of a document that is new or that is, or imports directly or indirectly, an edited file. Outputs of documents that are gone are not removed.",
"every tree, set of edits, configuration, schema, hash orders, thread counts and schedules",
"all trees of imports, all edits and all schedules",
["src/main.rs: main","src/worker_pool.rs: work","src/graphql.rs: compile_file, add_imported_fragments"])
p("C100","The helper types give back the types of query documents only",
"For the document that a generated query or subscription file exports, DataOf of the npm package is the file's data type and VariablesOf its variables type, never if it has none. For the document of a mutation or a fragment both are Record<string, unknown>: the data and variables types are lost, because every document type fits the first branch of the helpers.",
"every schema, configuration, hash order and definition that compiles",
"a statement about all generated types and about evaluation of conditional types, which no test of the repository runs",
["pkg/npm/lib/typed-documentnode.d.ts: DataOf, VariablesOf","src/typescript.rs: compile_ir"])
p("C101","What was built for a platform is what is installed on it",
"For every version number and every set of binaries, the release scripts publish an npm package that has the version of the binary, lists for every platform the installer supports the digest of the archive made of that platform's binary, and looks for it at the address under which that archive is published. Whatever the servers send, nothing is unpacked but an archive with that digest; if the servers send what is published and nothing fails, the archive is unpacked and the installation succeeds.",
"every version number, set of archives, order of the directory listing, number of redirects, partition of the body and course of the installation",
"the scripts run only at a release, on archives that do not exist before; grep patterns and sed replacements must not confuse platforms for any version",
[".circleci/bin/make-github-release.sh",".circleci/bin/make-npm-release.sh",".circleci/bin/get-version-from-binary.sh",".circleci/bin/get-release-platforms.sh","pkg/npm/package.json: checksumConfig","pkg/npm/lib/postinstall.js: main, getTarget, checksum"])
p("C102","Under a fair scheduler the program ends, whatever the file operations are interleaved with",
"If every file of the tree, compiled alone, returns without a panic, nothing that is read is an output and outputs are different files, then whatever the number of threads, however single reads, opens and partial writes of the workers are interleaved and however few bytes each partial write writes (at least one), all workers exit after finitely many system calls, provided each gets a turn again and again. With one thread, and with any number of threads if none takes a turn between another's taking work and being counted as busy, every file of the tree has then been compiled, every output is what its source alone leaves, and the main thread finishes the globals file after finitely many more system calls.",
"every tree, file system, hash order, number of threads, infinite fair schedule of system calls and sizes of partial writes",
"a liveness property over infinite schedules; no finite set of runs settles it",
["src/worker_pool.rs: run, work, aggregate","src/graphql.rs: compile_file, compile_global_types_file"])
p("C103","A run ends exactly on projects without recursion",
"For a consistent schema and imported fragments with different names: compiling a file returns, given enough time, exactly if it is not a readable file with one definition, or no chain of imports from it is infinite, no import line on these chains lacks its closing quote, and no chain of selection sets is infinite. If a file of the tree is not like that, no run over the tree ever completes, whatever the number of threads, the schedule and the hash order. If all files are, and no chain of input objects below a used global is infinite, then one amount of time suffices for every hash order and fair schedule: all workers exit, and the program completes with one thread, and with several if none takes a turn between another's taking work and being counted as busy.",
"every schema, tree, file system, configuration, hash order, number of threads and fair schedule",
"termination of all runs over all projects, and its failure for all schedules",
["src/graphql.rs: compile_file, add_imported_fragments, parse_foreign_fragments","src/graphql/ir.rs: Operation::compile","src/typescript.rs: add_sub_input_objects","src/worker_pool.rs: work"])
p("C104","Several invocations at the same time leave what one alone leaves",
"Let any number of invocations with the same options and the same schema be started over the same files, each with hash seeds and a number of threads of its own, and let all of them return, having compiled every file. However the steps of all their threads are interleaved, and in whatever pieces each writes its files over what the others have written, the files are in the end those that any one run alone leaves, and each invocation exits with the status of that run and prints the same texts. With different options, or if one of them is stopped, this fails: examples show a file that is half from one and half from the other, and an emptied file beside a successful invocation.",
"every number of invocations, tree, file system, configuration, schema, hash orders, thread counts, interleavings of system calls and sizes of partial writes",
"all interleavings of the system calls of all processes, with torn and overlapping writes",
["src/main.rs: main","src/worker_pool.rs: work, run, aggregate","src/graphql.rs: compile_file, compile_global_types_file"])
p("C105","A document reads a file once per chain of imports, in walking order, and writes only its output",
"Compiling a document first reads the document. If it can be parsed, then for every chain of import lines that starts in it (an import line of the document, then an import line of the file that line names, and so on) the file at the end of the chain is read exactly once, in the order of a walk that follows the first import line to the end before the second; nothing else is read. After that at most one file is written, the output of the document. So a file is read as many times as chains lead to it, which can be exponential in the number of files.",
"all documents, file systems, parsers, schemas and options for which the compilation returns; the exponential case for every depth n",
"the number of chains and their length are unbounded; a test counts the reads of a few projects",
["src/graphql.rs: add_imported_fragments, compile_file, read_graphql_file","src/graphql.rs: get_file_path_of_fragment"])

p("C106","How a path is spelled does not matter",
"Texts of paths that differ in doubled separators, in '.' between separators, or in a separator or '/.' at the end are the same path for the program, and no others are. The operations it uses (join, parent, extension, replacing the extension), done on texts as the standard library does them, agree with the operations on components: so the file an import line names, the output of a document and the globals file do not depend on how the root directory and the file are spelled. A message shows a path that is tidy as it was written; below a directory the text of the directory is kept as written.",
"every text of a path, every pair of texts, configuration and import line",
"all texts with any number of redundant separators and dots",
["src/graphql.rs: get_file_path_of_fragment, add_imported_fragments, compile_file, compile_global_types_file","src/worker_pool.rs: run_dir_entry"])
p("C107","A typed document is accepted in place of another of its kind exactly where that is safe, but kinds are not told apart",
"TypeScript accepts the document type of an operation where a document of the same kind is expected exactly if the data it yields is of the expected type and the variables given there are variables it takes; if some variables are given there and not every data is expected, this is exactly when every way of answering that keeps the promise of the first type keeps that of the second. A fragment document is accepted exactly if its data is. The document a generated file exports has the file's data type and its variables type in these places. Documents of different kinds are accepted in place of each other whatever their types, so there the promise can be broken.",
"all data and variables types, all kinds of documents, all ways of answering, all generated files",
"assignability for all types and all behaviours of a server; the generator's tests never run the TypeScript checker",
["pkg/npm/lib/typed-documentnode.d.ts: QueryDocumentNode, MutationDocumentNode, SubscriptionDocumentNode, FragmentDocumentNode","src/typescript.rs: compile_ir"])
p("C108","The npm package exports the path of the program it has installed",
"Wherever the package is installed, the path that require('@notarize/qlc-cli') yields, the file npm links the command qlc to, the file the installer makes executable and the file tar writes the archive's member to are one and the same. If the installer exits with status 0, the program that was built and released for the machine's platform is at that path and executable; the only exception is a download that broke off, after which the path still names the empty file that is part of the package, and the exit status is 0 nevertheless.",
"every package directory, platform, version, build, and every sequence of network, file system and tar events",
"all directories and all sequences of events, including failures at every point",
["pkg/npm/lib/index.js","pkg/npm/lib/postinstall.js: BIN_PATH, untar, main","pkg/npm/package.json: bin","pkg/npm/bin/qlc",".circleci/bin/make-github-release.sh"])
p("C109","Unchanged generated files mean unchanged answers",
"After documents, the schema or the settings have changed in any way: if regenerating leaves the file of an operation and the globals file as they were, then the possible answers to the operation are exactly what they were, and the server takes exactly the same variables. So comparing the generated files shows every change that matters to the code that uses them. The globals file has to be compared too: when an enum gets a value, it alone shows the new answers.",
"all pairs of schemas, documents, imported fragments and settings that are fit (C89, C92), all pairs of complete successful runs, all answers and variables",
"a pair of versions is arbitrary, and the sets of answers and variables are infinite",
["src/typescript.rs: compile_ir, compile_globals","src/graphql.rs: compile_file, compile_global_types_file","src/graphql/ir.rs: Operation::compile"])
p("C110","Documents that GraphQL accepts are compiled, but for a short list of constructs",
"On a valid schema, an operation or fragment that keeps GraphQL's rules about types (fields exist, sub-selections exactly on composite types, fragments exist, can apply and do not spread themselves, variables have different names and input types) is compiled and a file is generated for it, whatever the options and the order of hash maps, unless it is an operation without keyword or a subscription, has an inline fragment without type condition, asks for __schema or __type, has a variable whose type is a list of lists, or the schema has an interface or union without object types. Each of these is rejected although GraphQL allows it. Some documents GraphQL forbids are compiled: variables declared twice, variables of output types, and fragments that can never apply.",
"all valid schemas, all documents of any size and depth, all imported fragments, options and hash orders",
"all documents that keep the rules, of unbounded depth; tests contain single documents",
["src/graphql/ir.rs: Operation::compile, collect_fields_from_selection_set, insert_field","src/graphql/schema.rs: Schema","src/typescript.rs: compile_ir"])
p("C111","A project of documents that GraphQL accepts is generated completely, with exit status 0",
"If the directories of the project can be listed, the imports of every file are in order, every file holds one definition that GraphQL accepts together with the fragments it imports and that avoids the constructs of C110, the output files and the globals file can be written, and no input object of the schema contains itself, then every complete run exits with status 0, prints warnings only, and leaves in the output file of every document the text generated from it. And there is an amount of time after which runs do complete: with one thread under every schedule that lets it run, and with more threads when no worker is disturbed between taking work and saying so.",
"all valid schemas, all trees of files of any size, all files the rules above allow, all orders of hash maps, numbers of threads and schedules of single file operations",
"projects, schedules and hash orders are unbounded; a test runs one project once",
["src/cli.rs: RuntimeConfig","src/worker_pool.rs: WorkerPool","src/graphql.rs: compile_file, compile_global_types_file","src/graphql/ir.rs: Operation::compile","src/typescript.rs: compile_ir, compile_globals"])
p("C112","Files may be edited while the program runs",
"Other programs may change, create and delete files between any two system calls of a run. Whatever they do, a worker only ever writes the output of a document of the tree, as its last action for that document, and the text is generated from the document and the fragments as reading them yielded at moments of this run. If all answers to a worker were those of one state of the file system, the text is the one generated from that state; otherwise it may be a mixture, and an example shows a file being written although no state of the file system would have led to one. Changes to files that are neither read nor outputs do not matter at all: workers are in the same states as without them, with the same messages and outputs.",
"all trees, documents, numbers of threads, schedules of single system calls, and all changes other programs make, at all moments",
"the moments and contents of foreign changes are arbitrary; a test cannot place an edit between two given system calls",
["src/graphql.rs: compile_file, add_imported_fragments, parse_foreign_fragments","src/worker_pool.rs: Worker, Work"])
p("C113","The order in which a server lists its schema does not matter",
"Two introspection documents may list the same types, fields, input fields, possible types and enum values in different orders. Then one is loaded exactly if the other is. If no name is listed twice, one is valid exactly if the other is, and if they are valid, complete runs of the program over the same files with the one and with the other, with any hash orders, numbers of threads and schedules, end both with status 0 or both with another, and leave the same contents in all files, whether or not there were errors. Provisos as for C16: no document's output depends on hash orders; nothing that is read is an output, and outputs are distinct.",
"every pair of introspection documents that differ in order only, every tree, configuration, hash orders, thread counts and schedules",
"all permutations at every level of a schema, combined with all schedules",
["src/graphql/schema.rs: Schema::try_from_reader, get_fields_for_complex", "src/typescript.rs: global_types_from_names, input_def_from_type, enum_def_from_type", "src/graphql/ir.rs: Operation::compile"])
p("C114","In an ordinary project inputs and outputs never meet",
"Call a project ordinary if its tree is what listing the root directory shows, if imports name .graphql files, if the globals file is not named like a document or an output, and if paths that lead to one file lead to one place (no links among the touched files). Then nothing that a run reads is an output or the globals file, different documents have different outputs, and the globals file is no output; so a run, successful or not, leaves every document it reads as it was. The condition on the globals file holds whenever the name of the globals module ends in a name without a dot, as the default one does; it is needed: a globals module named like a document makes the program replace the document and report success.",
"every working directory, file tree of any depth, file system, configuration, hash order, thread count and schedule",
"all trees and all path spellings, with .. and . anywhere in import paths",
["src/graphql.rs: compile_file, compile_global_types_file", "src/worker_pool.rs: WorkerPool::work", "src/graphql.rs: get_file_path_of_fragment"])
p("C115","How many types a document can generate",
"A document without inline fragments and spreads generates at most one type per selection written in it, and one for the document, whatever interfaces and unions it selects on. With inline fragments there is no such bound: there is a schema and for every n a query with 5n+5 selections and without spreads, accepted by GraphQL, whose generated text has at least 2^n characters.",
"every schema, document, hash order and configuration; every n",
"the growth of the output over documents of all sizes",
["src/typescript.rs: type_definitions_from_complex_field_collection, type_definitions_from_complex_ir", "src/graphql/ir.rs: collect_fields_from_selection_set"])
p("C116","Renaming fragments changes nothing for their users",
"Rename fragments throughout a project, so that different names stay different, and operations at will. Each document then compiles as before: it fails or crashes if and only if it did before, with errors and warnings about the same things, and otherwise its generated text is the former one with the name of its own operation or fragment replaced at the beginning of the names of its types. After a run with exit status 0, renaming and running again ends with status 0, leaves the globals file as it was, and leaves the generated file of each document whose own name is unchanged exactly as it was, whichever fragments it uses were renamed.",
"every project, schema, injective renaming, pair of hash orders, schedules and thread counts",
"relates two runs over all projects and all renamings",
["src/graphql/ir.rs: collect_fields_from_selection_set, Operation::compile", "src/graphql.rs: compile_file, add_imported_fragments, parse_foreign_fragments", "src/typescript.rs: compile_ir"])
p("C117","A project generates the same files wherever its files lie",
"Run the program with exit status 0 on a project, and run it on another project with the same schema and settings whose documents are the same: each has the same operation or fragment and imports the same fragments, through whatever import lines and from whatever files; layout, arguments and directives may differ. If the second project's imports can be read and its outputs written, the second run ends with status 0 too, the generated file of each document has exactly the same text, the same globals are used, and the globals file, if any are used, is the same. In particular a project without absolute imports can be copied to another directory: the run there ends with status 0 and generates the same files below the new root.",
"every pair of projects with the same documents, every schema, pair of hash orders, schedules and thread counts; for moves, every pair of root directories",
"relates two runs on different file systems, over all projects, import graphs and directories",
["src/graphql.rs: compile_file, add_imported_fragments, get_file_path_of_fragment, parse_foreign_fragments", "src/graphql/ir.rs: Operation::compile", "src/typescript.rs: compile_ir, compile_globals", "src/main.rs: main"])
p("C118","The exit status is 0 exactly for correct projects",
"A run ends with exit status 0 if and only if the project is correct: all its directories can be listed; every document can be read, holds exactly one definition, and has all its imports in order (readable, and, where an imported file holds one definition, a fragment); the root type of the definition exists and is composite; everything written in the definition is valid where it stands, with the imported fragments; its variables have existing input types with at most one level of lists; and its output file can be written. So status 0 misses no mistake, a correct project is never refused, and all complete runs over a project agree about it, whatever the number of threads, the schedule and the order of hash maps. Provisos: input types of the schema are valid, every interface and union has an object type, different imported fragments have different names, the globals file can be written, and no output file is at the same time a document or another output.",
"every valid introspection document, project, file system, number of threads, schedule, hash order and completed run",
"Both directions are claims about all projects: that no kind of mistake slips through with status 0, and that no correct project is refused. Tests can only try particular mistakes and particular correct projects.",
["src/main.rs: main", "src/cli.rs: print_exit_info", "src/graphql.rs: compile_file, add_imported_fragments, parse_foreign_fragments, compile_global_types_file", "src/graphql/ir.rs: Operation::compile", "src/typescript.rs: compile_ir, compile_globals"])
p("C119","Data found where a document spreads a fragment belongs to the fragment's generated type",
"After a run with exit status 0, let a document of the tree import a file with a fragment F and spread F at the end of a path of response keys, inside fields and fragments that every object there fits. Whatever a server answers to the document, each object found along that path (through any levels of lists) has, when the properties that F did not ask for are left out, the type that the output file of F's own document exports: a component written against the fragment's type can be handed the data of every document that spreads the fragment. If the document also meets the conditions of C92, the same is true of every value of the document's generated type, wherever it comes from. Provisos: schema and both documents as in C89, all imports of the document lie in the tree and define differently named fragments, and selections with the same response key select the same field (GraphQL's merging rule, which qlc does not check).",
"every valid introspection document, project, file system, schedule, hash order and completed run, every document and imported fragment, every path of response keys and every possible response",
"The two types are generated from different files in separate jobs, with different fragments in scope; that they fit together is a claim about all documents, nestings and responses.",
["src/graphql.rs: compile_file, parse_foreign_fragments", "src/graphql/ir.rs: Operation::compile, collect_fields_from_selection_set, insert_field", "src/typescript.rs: compile_ir, type_definitions_from_complex_ir"])
p("C120","Asking for more does not break code written against the old type",
"Let a second version of a document, and of the fragments it spreads, ask for at least as much as the first: selections may be added anywhere and put in another order, arguments may change, nothing is taken away. Then every response to the second version has, when the added properties are left out, the type generated for the first version; and if the second version meets the conditions of C92, the same is true of every value of the type generated for the second version. So data typed by the new file can be handed to code written against the old one, even if the two files come from different runs with different globals files. Provisos: the same schema and configuration, both versions as in C89 (with the directives unchanged), imported fragments valid (C90), and in the second version selections with the same response key select the same field.",
"every valid introspection document, every two versions of a document and of its fragments, all nestings, hash orders and values",
"It compares what is generated for two different inputs, for all documents and all ways of adding selections at all depths.",
["src/graphql/ir.rs: Operation::compile, collect_fields_from_selection_set, insert_field", "src/typescript.rs: compile_ir, compile_globals, type_definitions_from_complex_ir"])
p("C121","A schema that promises more keeps old code valid",
"Let a new version of the schema differ from the old one only in that field types have got non-null marks (at any depth) and enums have lost values. Then every value of the type generated for a document from the new version is a value of the type generated for the same document from the old version, each file read with the globals file of its own version: code written against the old type accepts whatever the new one describes. Provisos: same document, fragments and configuration; the old version as in C89 and the new one as in C92.",
"every two valid introspection documents so related, every document and set of fragments, all nestings, hash orders and values",
"It compares the output for two different schemas, over all schemas, documents and values.",
["src/graphql/ir.rs: Operation::compile, collect_fields_from_selection_set, get_type_ir_for_field", "src/typescript.rs: compile_ir, compile_globals, type_definitions_from_complex_ir"])
p("C122","A schema that asks for less keeps old calls valid",
"Let a new version of the schema ask for less input than the old one: types of input fields may have lost non-null marks, nullable input fields may have been added, enums may have got values. Let a new version of a document keep the old variables, maybe with fewer non-null marks, and maybe add nullable ones; its name, selections and fragments may change at will. Then every value of the variables type generated from the old version, read with the old globals file, is a value of the variables type generated from the new version, read with the new globals file: calls written against the old type still type-check. Provisos as in C80 for both versions; default values are left out of account, as there.",
"every two valid introspection documents so related, every two documents whose variables are so related, all nestings of input objects, hash orders and values",
"It compares the output for two different schemas and documents, over all schemas, documents and values.",
["src/graphql/ir.rs: Operation::compile", "src/typescript.rs: compile_ir, compile_globals"])
p("C123","What GraphQL accepts is generated reproducibly",
"In an ordinary project whose documents GraphQL accepts, its rule on merging fields included, whose documents and imported fragments use nothing unsupported, and on a schema whose object types give the fields of their interfaces types of the same name, any two complete runs exit with status 0, leave the same files behind and print the same report, whatever their numbers of threads, schedules and orders of hash maps; a run over the result of a run leaves every file as it is; and no generated object type lists a property twice. Without the condition on the schema this fails: two orders of hash maps give different texts for a document that GraphQL accepts.",
"all valid introspection documents that keep named types, all ordinary projects of valid and supported documents, all configurations, pairs of complete runs, numbers of threads, schedules, hash orders and palettes",
"Reproducibility must hold for every pair of hash orders and schedules, and the tests run the compiler once on fixed documents.",
["src/graphql/ir.rs: Operation::compile", "src/typescript.rs: compile_ir, compile_globals", "src/worker_pool.rs: WorkerPool::work"])
p("C124","A rule of thumb under which generated types are right",
"In an ordinary project whose documents GraphQL accepts, its merging rules included, suppose that every fragment (inline or spread) whose type condition does not cover all objects of the type around it selects only scalars, enums and __typename, while other fragments and fields may nest as they like. Then every complete run exits with status 0, however scheduled, and afterwards every document has an output file whose data type admits every response a server may give and whose variables type admits all variables a server takes, the imported names meaning what the globals file on disk says.",
"all valid introspection documents, ordinary projects that GraphQL accepts and that follow the rule, configurations, schedules, thread counts, hash orders, responses and variables",
"Whether look-alike object types share a generated name with different contents depends on every pair of object types at every position of every document; tests fix a few documents.",
["src/graphql/ir.rs: Operation::compile", "src/typescript.rs: compile_ir, compile_globals", "src/worker_pool.rs: WorkerPool::work"])
p("C125","How the JSON files are spelled does not matter",
"The schema file and the configuration file are read as a JSON tree exactly if their bytes are a JSON document for it: UTF-8, RFC 8259, white space around the parts, any escapes, no control characters in strings, surrogates in pairs, no zeros in front, nothing after the end, and at most 127 levels of nesting. A text means one tree at most; any other text is reported as malformed. Two spellings of the same settings or the same introspection result, which may differ in white space, escapes, the order of members and members that are not read, let the program do exactly the same.",
"all byte sequences, all JSON trees, all spellings of them, and all runs of the program",
"The grammar has infinitely many spellings of every tree; tests contain a few files written by one tool.",
["src/graphql/schema/json.rs: Schema::try_from_reader", "src/cli.rs: ConfigFileMatches::from_file_parse"])
p("C126","A schema or configuration that was cut short is never used",
"If a file holds an introspection result and the schema file holds only a beginning of it, wherever it was cut, even inside a character, then every run of the program reports a malformed schema, exits with status 1 and touches no file, unless nothing but white space at the end is missing, in which case the schema is the same. The same holds for configuration files. So a download that was broken off, although the download may end with status 0 (C86), never leads to wrong types.",
"all files that hold a schema or settings, all beginnings of them, all downloads and all runs of the program",
"A file can be cut at every byte; tests try complete files.",
["src/graphql/schema/json.rs: Schema::try_from_reader", "src/graphql/schema.rs: parse_schema", "src/cli.rs: ConfigFileMatches::from_file_parse", "pkg/npm/bin/qlc-download-schema"])
p("C127","Documents are read by the GraphQL grammar",
"A text is read as a list of definitions exactly if it is made of GraphQL tokens, with spaces, commas, line ends, byte order marks and comments between them, and these tokens form exactly these definitions by the grammar of executable documents: operations, selection sets and fragments, at least one; selections, aliases, arguments, directives and variables as in the GraphQL specification. No text has two readings, and every other text, such as one with a brace missing, an empty selection set or a type definition, is an error.",
"all texts, all lists of definitions, all ways to count lines and columns and all further refusals",
"A grammar is about all texts; tests parse some.",
["src/graphql.rs: parse_query", "src/graphql/ir.rs: Operation::compile", "Cargo.toml: graphql-parser"])
p("C128","How documents are laid out does not matter",
"Spaces, line breaks, commas and comments other than import lines may be changed at will: texts with the same tokens hold the same definitions, but for where these stand, or are both refused. So if documents of a project are laid out in another way, with their import lines where they were, every file still compiles to the same text with the same global types or still fails with as many errors and warnings, and a project that compiled without errors still does, to the same files with the same contents, whatever the schedules and hash orders of the two runs.",
"all pairs of texts with the same tokens, all projects, all runs before and after",
"Formatters can change every gap between tokens in every document.",
["src/graphql.rs: parse_query", "src/graphql/ir.rs: Operation::compile", "src/main.rs"])
p("C129","A document of which only the beginning is there is never taken for the whole",
"If the beginning of the text of a document is itself accepted as a document, then it holds the first definitions of the whole, each complete. So the beginning of a document with one definition, which is what qlc compiles, is either refused or holds that definition, complete, with the same tokens: only spaces, commas and comments are missing. If only the first bytes of such a document are in its file, as while an editor or a checkout is writing it, then compiling the file fails with one message, or gives the text, global types and number of messages that the whole document gives.",
"all documents, all numbers of bytes that have been written, all schemas and file systems",
"A document can be cut after any byte.",
["src/graphql.rs: parse_query, read_graphql_file, parse_graphql_file, compile_file"])
p("C130","Names in documents need no care, but for those of operations and fragments",
"Every response key, every variable, every named operation and every fragment of a document that qlc accepts has a GraphQL name: letters, digits and underscores, not beginning with a digit. So response keys and variables can always be written as properties in TypeScript. For a project to get right types by C124, the only things to ask of the names in its documents are that no operation or fragment is called like a reserved word or a predefined type of TypeScript, and that the types generated from it are not called like types of the schema.",
"all document texts, all projects, all complete runs",
"Names can be any characters as far as a test knows; that all of them are harmless follows from the grammar of all documents.",
["src/graphql.rs: parse_query", "src/typescript.rs: compile_ir"])
p("C131","From the bytes on the disk to the types",
"A schema file holds, in any JSON spelling, what a server answered to the query of the download script; a configuration file, if there is one, holds settings in any spelling; the documents are GraphQL texts; qlc is started with a command line that names the schema file, with one thread. If the project is sound (its schema can be written in TypeScript, its paths do not meet, its documents are valid GraphQL without the unsupported constructs and follow the rule of thumb of C124), then the program can end, whatever the order of hash maps, if it is given enough time; and whenever it ends, it ends with status 0 and has left, for every document, a module whose data type admits every answer of the server and whose variables type admits everything the server takes. Under the conditions of C92 they admit nothing else.",
"all servers, all spellings of the schema and configuration files, all command lines, all sound projects, all schedules, hash orders and amounts of time",
"The claim spans reading two file formats, the command line, the worker pool, code generation and the meaning of the generated text, for all inputs of each; a test exercises one such path.",
["src/main.rs: main", "src/cli.rs: RuntimeConfig::from_cli", "src/graphql/schema.rs: parse_schema", "src/worker_pool.rs: WorkerPool::work", "src/typescript.rs: compile_ir, compile_globals"])
p("C132","Messages mark the word that they are about",
"If the GraphQL parser gives lines and columns (counted by newlines and characters, from 1), then every message about a part of a document quotes the line on which that part is written, and the caret below it stands exactly under the first character of the word that the part begins with: the alias or name of a field, the name after the dots of a spread, the word `on` of an inline fragment, the dollar sign of a variable, the keyword of a definition. This holds for the error about each invalid selection, for every warning, for variables that cannot be used and for a second definition; the only errors that mark nothing are those about type conditions that name no type or an input type. With an alias, the caret is under the alias although the message names the field.",
"all texts of documents with any layout, comments, carriage returns and nesting, all schemas, all imports, all hash orders, all invalid selections and warnings",
"where a caret lands depends on every character of the file before it; a fixture shows one layout.",
["src/cli.rs: LocationInformation", "src/graphql.rs: parse_query", "src/graphql/ir.rs"])
p("C133","A project without subdirectories is safe with any number of threads",
"If the root directory holds files only, then every run in which all workers exit is complete, whatever the number of threads and the schedule: every document has been compiled, the exit status is 0 exactly if everything is fine, and for projects without recursion every fair schedule leads to the end of the program. In particular the way of C131, from the bytes of schema, configuration and documents to right types, holds for such projects with the number of threads of the command line, of the configuration file, or of the machine. Only these projects are safe: with two threads or more every run in which all workers exit has compiled every document if and only if no document lies in a subdirectory.",
"all projects without subdirectories, numbers of threads, schedules, hash orders, schemas, configurations; for the converse all trees and compiles that return",
"the number of schedules is unbounded, and the race of C51 needs an interleaving that tests do not meet",
["src/worker_pool.rs: WorkerPool::work", "src/worker_pool.rs: Worker::pop_work", "src/worker_pool.rs: Work::run_dir_entry", "src/main.rs: main", "src/cli.rs: from_cli"])
p("C134","Generated files stay right when the server is upgraded safely and nothing is generated anew",
"Let qlc have generated the files of a sound project (C131) from one version of a schema, and let the server then move to another version without anything being generated again. If the upgrade is safe for answers (the composite types of the old version get no further object types and lose only those that are dropped altogether, fields keep their lists and may get non-null marks or narrower object types, enums get no further values; types and fields may be added and dropped freely), then every answer of the upgraded server to a document is a value of the type on the disk. If moreover the new version takes the input of the old one (C122) and the types are exact, the upgraded server takes every value of the variables type on the disk. If the files are generated anew from the new version with exact types, every value of a new type is a value of the old one. Upgrades that only promise more (C121) or only add to types other than enums (C97) are safe; an upgrade that adds an enum value is not, and there the file on the disk rejects an answer of the server.",
"every pair of versions, every sound project, every complete run with every number of threads and every order, every file, every answer at every depth, every object of variables",
"A test compares one answer with one generated file; that no answer of any later server version escapes the old types is a statement about all schemas, upgrades, documents and answers.",
["src/typescript.rs: compile_ir", "src/graphql/ir.rs: Operation::compile", "src/typescript.rs: compile_globals", "src/main.rs: main"])
p("C135","Colours change nothing but colours",
"If painting a text only puts style sequences (ESC [ numbers m) into it, then every message, and everything printed at the end, is the uncoloured text with style sequences put in, and the exit status is the same. A coloured text comes from at most one text without escape characters, so what a terminal shows is the uncoloured text. Typing --no-color before the other words changes nothing else: for every way in which the program can end with the words alone there is one with the option that leaves the same files and exit status and prints the same texts but for style sequences, and the other way round.",
"every message, every list of messages, every painter that only adds style sequences, every accepted command line without the option, every world, tree, schedule and hash order",
"tests run without a terminal or with one set of messages; the claim is about all messages, command lines, schedules and painters",
["src/cli.rs: fmt_line_encoding", "src/cli.rs: fmt_file", "src/cli.rs: print_exit_info", "src/cli.rs: from_cli"])
p("C136","Suggestions are exactly the names at most two typing mistakes away",
"The help printed for an unknown field lists exactly the fields of the type, and the help for an unknown fragment exactly the fragments in scope, that can be reached from the written name by at most two typing mistakes: a character too many, a character left out, a wrong character, or two neighbouring characters swapped, in any order and at any places, one mistake possibly correcting another. If no name is so near the help makes no suggestion. The distance used is the least number of such mistakes, for all texts.",
"all pairs of texts over any alphabet, all names in plain characters and all lists of candidates, every file with invalid selections",
"tests compare a few pairs of words; that the table computes the least number over all sequences of mistakes is a claim about all texts and all sequences",
["src/cli.rs: similar_help_suggestions", "src/graphql/ir.rs: UnknownField"])
p("C137","A mistake in one document does not spoil the others",
"After a complete run, whatever its exit status: every document for which a file can be generated, and whose output can be written, has its output file with the text generated from it, and the text is the same as in any other project that has this document and what it imports, whatever the other documents are and however many of them are faulty. A document for which none can be generated keeps its old output byte for byte. The globals file, if it can be written, declares exactly what the texts generated in this run need. So the documents generated in one run fit the globals file; an output kept from an earlier run need not: an example of two runs shows a kept output importing an enum that the second run removed from the globals file, although the first run had ended with status 0.",
"all projects, sets of faulty documents, schedules, thread counts and hash orders",
"tests cover single faults in small projects; the claim is about every combination of sound and faulty documents under every schedule",
["src/worker_pool.rs: work", "src/graphql.rs: compile_file, compile_global_types_file"])
p("C138","A clean checkout generates the same files as a used directory",
"Take two directories that hold the same documents with the same contents but different leftovers of earlier runs: other outputs, another globals file, outputs of documents that are gone, or nothing at all. Complete runs in both, with any hash orders, numbers of threads and schedules, end with the same status and, if the globals can be generated, print the same texts. Of every output and of the globals file either both runs leave the same text or neither changes it; without an error only the globals file can be left unchanged, namely if no document uses a global. So if a run ends with status 0 anywhere, a run over a fresh copy ends with status 0 and leaves the same outputs and the same globals file. Provisos: those of C58 on hash orders and on what is read and written.",
"all projects, all leftovers, schedules, thread counts and hash orders",
"the space of earlier histories is unbounded; tests start from a few fixed directories",
["src/main.rs: main", "src/worker_pool.rs: work", "src/graphql.rs: compile_file, compile_global_types_file"])
p("C139","Options may be given on the command line or in the configuration file",
"Every option on the command line can be moved into the configuration file, and every member of the file to the command line, without any observable difference: the two invocations have exactly the same possible outcomes, that is the same output, exit code and files. For every command line that is accepted there is a JSON configuration file saying the same. The directory to compile, the name of the configuration file and the choice of colours can only be given on the command line. A path to the schema in the file is meant relative to the file. A switch that the file turns on cannot be turned off on the command line, and a prefix for custom scalars in a file without the switch for custom scalars is dropped.",
"every accepted command line, every configuration file, every schema, every tree of source files and every schedule",
"The equivalence is about two runs for every combination of options and all schedules; a test fixes one combination.",
["src/cli.rs: CliArgs, ConfigFileMatches, from_file_parse, RuntimeConfig, from_cli, bottom_type_config", "src/main.rs: main"])
p("C140","Running the program tells whether checked-in outputs are up to date",
"Generated files are kept under version control next to the documents. A complete run over such a checkout that ends with status 0 changes no file exactly if the outputs and the globals file that were checked in are those that a run in a clean checkout of the same project generates, whatever the hash orders, numbers of threads and schedules. So running the program and looking whether anything changed is a sound and complete check. It has two blind spots: the output of a document that was removed stays, and so does the globals file when no document uses a global any more.",
"all projects in which inputs and outputs do not meet and whose documents generate reproducibly (C123), all contents of outputs before the run, hash orders, numbers of threads and schedules",
"It compares two runs over all contents of earlier outputs and all schedules; a test compares one checkout with one run.",
["src/main.rs: main", "src/worker_pool.rs: work", "src/graphql.rs: compile_file, compile_global_types_file"])
p("C141","Asking for deprecation warnings changes nothing but these warnings",
"Whatever the program can do with --show-deprecation-warnings it can do without it, and conversely (with the same hash orders and the same schedule): the same files everywhere afterwards, the same exit status, and the same messages in the same order apart from the warnings about deprecated fields, all of which are missing without the option. This also holds of runs that fail.",
"all command lines, configuration files that do not ask for the warnings themselves, schemas, directories, documents, file system states and errors, hash orders, numbers of threads and schedules",
"It compares two runs for every input and every schedule; a test compares one project under one schedule.",
["src/cli.rs: show_deprecation_warnings, print_exit_info", "src/graphql/ir.rs: DeprecatedFieldUse", "src/worker_pool.rs: work", "src/graphql.rs: compile_file"])
p("C142","Options about style change nothing but the style",
"Marking properties readonly, the spelling of custom scalars (any, own names, own names with a prefix) and the names of the two imported modules change nothing else. Whatever the document, compiling it under two settings that differ only in these ends in the same way: with the same messages, or with the same warnings, the same globals and the same file, printed with the markers, the scalar names and the module names that are set. If a whole run ends with status 0 then so does every run over the same directory with other styles, whatever the schedules, every document has the same output up to style in both, and the globals files declare the same types.",
"all pairs of settings that differ only in style, documents, schemas, file system states; for whole runs all directories, hash orders, numbers of threads and schedules",
"It compares two runs for every document and every pair of settings; tests pin the output of single documents under single settings.",
["src/typescript.rs: compile_ir, compile_custom_scalar_name, compile_imports", "src/typescript/field.rs", "src/graphql.rs: compile_file, CompileConfig", "src/cli.rs: disable_readonly_types, use_custom_scalars, custom_scalar_prefix"])
p("C143","A project whose documents ask for the same data generates the same files",
"Take two states of a project over the same file tree, perhaps with two schemas, in which every document keeps its name and variables and asks for the same data (for example because documents were tidied: selections reordered, fragments written out or extracted, repetitions and unneeded imports removed). If runs over both states end with exit status 0, then every output file holds the same text after both, the same global types are used, and, if the schemas describe enums and input objects alike, the globals file is the same too, whatever the hash orders, schedules and numbers of threads.",
"all pairs of project states and schemas whose documents ask for the same data, all directory trees, hash orders, schedules and numbers of threads",
"tests compare the outputs of a few rewritten documents in one run; the claim is about every rewriting of every project under every schedule",
["src/graphql.rs: compile_file", "src/graphql/ir.rs: Operation", "src/typescript.rs: compile_ir, compile_globals", "src/worker_pool.rs: WorkerPool"])
p("C144","Adding documents to a project only adds declarations to the globals file",
"Let all documents of one project be documents of another, with the same text and the same imported files. If runs over both end with exit status 0, then every document of the smaller project has the same output after both, every global type used in the smaller project is used in the larger one, and, if the smaller project uses a global type at all, the globals file of the larger project contains all declarations of the smaller one's, word for word and in the same order, whatever the hash orders, schedules and numbers of threads.",
"all pairs of projects of which one contains the other, all schemas, directory trees, hash orders, schedules and numbers of threads",
"tests look at one globals file of one project; the claim compares the files of every pair of projects, one a part of the other, under every schedule",
["src/graphql.rs: compile_file", "src/graphql.rs: compile_global_types_file", "src/typescript.rs: compile_globals", "src/worker_pool.rs: WorkerPool"])
p("C145","Outputs of removed documents stay, and removing documents only removes declarations from the globals file",
"Let a run end with exit status 0, then let documents be removed (and perhaps other files edited, but no generated ones), and let the program run again. The program deletes nothing: however the second run ends, the outputs of the removed documents still hold what was generated from them, and if no document that is left uses a global type, the old globals file is still there. If the second run ends with status 0 and the documents that are left read no edited file, their outputs are as before, and if one of them uses a global type, the globals file holds a part of its former declarations, word for word and in the same order: those of the types the remaining documents reach. So an output of a removed document may import a type that the globals file no longer declares.",
"all projects, all sets of removed documents and edits to files that are not generated, all schemas, hash orders, schedules and numbers of threads of both runs",
"tests run the program on one directory, usually a fresh one; the claim is about every history of two runs with any documents removed in between",
["src/graphql.rs: compile_file", "src/graphql.rs: compile_global_types_file", "src/typescript.rs: compile_globals", "src/worker_pool.rs: WorkerPool"])
p("C146","The order in which an operation declares its variables does not matter",
"If an operation whose variables have different names is compiled, then so is every operation that declares the same variables in another order, with other default values or other directives on the operation: the generated text is the same, the same global types are used, and the same warnings are given. Likewise, if runs over two states of a project that differ in this way only both end with exit status 0, they leave the same text in every output and the same globals file. If the run over the first state ends with exit status 0, so does the run over the second, provided that its outputs can be written. For variables of one name, which GraphQL forbids but the program accepts, the order does matter.",
"all operations, orders of their variables, default values, fragments in scope, schemas, options and hash orders",
"tests compile one order of the variables of a few operations; the claim is about every order of every list of variables",
["src/graphql/variable.rs: try_build_variable_ir", "src/typescript.rs: compile_variables_type_definition, compile_variable_type_name", "src/graphql/ir.rs: Operation"])
p("C147","What the globals file says about a type depends on nothing but the schema's description of that type",
"Take any two runs with the same options, of whatever projects and with whatever schemas, that both end with exit status 0 and use a global type. A type that both schemas describe alike and that both globals files declare is declared in both by the same words, whatever else is in the schemas, whichever documents use it, and whatever the hash orders, schedules and numbers of threads. So when a schema changes, regenerating changes only the declarations of the types that changed.",
"all pairs of projects, schemas, used names, hash orders, schedules and numbers of threads",
"tests compare one globals file with a stored one; the claim relates the globals files of all pairs of projects and schemas",
["src/graphql.rs: compile_global_types_file", "src/typescript.rs: compile_globals, input_def_from_type, enum_def_from_type"])
with open('/verif/properties.jsonl','w') as f:
    for x in P: f.write(json.dumps(x,ensure_ascii=False)+"\n")
print(len(P))
