# Formal model of notarize/qlc in Lean 4

qlc reads an introspection schema and a tree of `.graphql` files and writes a TypeScript declaration file beside each of
them, plus one module with the enums and input objects that are used. The model is a set of total Lean functions that
follow the Rust code function by function; the theorems are about these functions.

## Layout

* `lean/Verif/Model/*.lean`  executable model, one file per Rust module, every definition cites the lines it models.
* `lean/Verif/Spec/*.lean`   independent specifications: GraphQL validity, field collection, possible types and responses;
  TypeScript type grammar and value semantics; import graphs; traces of file operations. They use the data types of the
  model (schema, query, declarations) but not its algorithms. `Spec/Demo.lean` holds the schemas, documents and file
  systems of the examples.
* `lean/Verif/Lemmas/*.lean` helper lemmas.
* `lean/Verif/Props/*.lean`  property theorems (named `Cxx_...`) with non-vacuity examples and negative witnesses.
* `lean/Verif/Conformance/*` the repository's own fixtures replayed in the model (a test of the model, see below).
* `properties.jsonl`, `MANIFEST.json` are generated by `tools/gen_properties.py` and `tools/gen_manifest.py`.
* `INDEX.md` lists, for each property, its theorems with their files and axioms (`tools/gen_index.py`).
* `seeded/LOG.jsonl` records the wrong programs the theorems were tested against.

## Trusted base

* Lean 4.33.0's kernel. No `sorry`, no `native_decide`, no `bv_decide`, no axioms of our own, no `implemented_by`,
  no `unsafe`, no `partial` in the model. `decide +kernel` is used in examples, in witnesses and for facts about fixed
  literals (say, the four platforms) only; it is evaluated by the kernel.
* Axioms (from `#print axioms` on all theorems of the manifest): every theorem depends on `propext`, `Classical.choice` and
  `Quot.sound` or on some of them, and on nothing else. `INDEX.md` lists them theorem by theorem.
* The reading of the Rust code that the comments of the model cite. The conformance suite checks this reading on all
  fixtures of the repository.
* The specifications in `Verif/Spec`: that they say what GraphQL, TypeScript and the operating system do.

### Modelled

| Rust | Lean |
|---|---|
| `src/main.rs` | `Model/Main.lean` |
| `src/cli.rs`: `CliArgs` with its clap attributes | `Model/Args.lean` |
| `src/cli.rs`: configuration, messages, locations, suggestions, summary, exit status | `Model/Cli.lean` |
| `src/cli.rs`, `src/graphql/schema/json.rs`: derived `Deserialize` on JSON trees | `Model/Json.lean` |
| `src/graphql.rs` | `Model/Compile.lean`, with single file operations in `Model/Steps.lean` |
| `src/graphql/ir.rs` | `Model/IR.lean`, `Model/Query.lean` (the syntax tree of the parser crate) |
| `graphql_parser::parse_query`, as called in `src/graphql.rs` | `Model/GraphqlText.lean` |
| `src/graphql/schema.rs`, `schema/field.rs` | `Model/Schema.lean` |
| `src/graphql/variable.rs` | `Model/Variable.lean` |
| `src/typescript.rs`, `typescript/field.rs` | `Model/Typescript.lean` |
| `src/worker_pool.rs` | `Model/Pool.lean` (one compile is one step), `Model/Steps.lean` (one file operation is one step), `Model/Shared.lean` (several processes) |
| `pkg/npm/lib/index.js`, `bin` of `pkg/npm/package.json`, `path.join` of Node | `Model/NpmPath.lean` |
| `pkg/npm/lib`: `postinstall.js`, `download.js`, the exports of `typed-documentnode.d.ts` | `Model/Npm.lean` |
| `pkg/npm/lib/typed-documentnode.d.ts`: `DataOf`, `VariablesOf` | `Model/Library.lean` |
| `.circleci/bin/*.sh`, `pkg/npm/package.json` | `Model/Release.lean` |
| the edit distance of strsim 0.10.0 | `Model/Distance.lean`, `Model/DistanceVec.lean` (statement by statement) |
| `std::path` as far as used | `Model/Path.lean` (components), `Model/RawPath.lean` (texts) |

### Not modelled

* The GraphQL parser crate is a parameter (`Ext.parse`: any function from text to a list of definitions or an error) in all
  properties but C127 to C132. These are about `Model/GraphqlText.lean`, a parser written after the GraphQL specification
  and the crate's documented grammar; how the crate counts lines and columns, what it refuses besides (deep nesting) and how
  it words errors stay parameters. Texts that the crate accepts although the specification does not would not be covered.
* The edit distance (`Ext.dist`) is a parameter in all properties but C136, where it is the algorithm of strsim 0.10.0
  (`Model/Distance.lean`, from its published source: the crate is not in /repo).
* `num_cpus`, the wording of serde_json's errors, the texts that clap prints. Terminal colours are a parameter; C135 assumes
  that painting a text only adds style sequences.
  serde_json's reading of text is modelled from RFC 8259 and its documented behaviour (`Model/JsonText.lean`). clap's reading of the command line is modelled from its documented behaviour (`Model/Args.lean`).
* The file system is a parameter: which file a path names (`World.resolve`), its contents or error, and a write error per
  file. Files do not change under the program except by the program's own writes and, in C104, those of other
  invocations of it, and in C112 by any other program. Directory trees are finite and do not change.
* Node: its event loop, streams, `https` and `fs` are the events of `Model/Npm.lean`; SHA-256 is a parameter, `tar` one step.
* TypeScript: of its type system only what C100 and C107 need (optional properties, function types with
  `strictFunctionTypes`, `infer`), from its documented behaviour. Of the
  shell, `grep`, `sed` and word splitting for the patterns that the release scripts use; building, `tar`, `ghr` and `yarn`
  are parameters or left out.
* Memory: no allocation failure, no stack overflow (unbounded recursion is non-termination in the model), machine integers
  do not overflow (C49 shows the pool counters do not).
* Atomics are sequentially consistent (the code uses `SeqCst`); channels are FIFO and linearizable.

### Simplifications (also stated at the definitions)

* `Path.display` prints the normalised path: messages differ from Rust's if redundant separators are written, and for imports
  that begin with `./` (Rust shows `src/./f.graphql`). C106 says exactly which texts are shown alike and that both texts name
  the same path. A file named with a separator at the end (`f.graphql/`) is that file in the model; Unix refuses to open it.
* In `Model/Pool.lean` a compile is atomic. C66 justifies this: interleavings of single reads, opens and partial writes
  yield what some sequence of whole compiles yields, provided outputs are distinct and not read.
* Strings are sequences of Unicode scalar values; non-UTF-8 paths do not occur, and a file that is not UTF-8 is one that
  cannot be read. A partial write may end inside a character; the file then is not UTF-8. In `Model/Shared.lean` files are
  bytes.
* The specification of responses (C22) takes `Query` and `Mutation` as root types, as the code does.

## Modelling decisions

* Rust `HashMap`/`HashSet` are association lists with unique keys. Wherever the code iterates over one, the model applies an
  arbitrary permutation chosen by an oracle `Hash` (`perm : site -> List a -> List a`, any permutation). Theorems quantify
  over all oracles. Within one run the oracle answers equal lists at the same place alike, whereas Rust seeds every map
  anew; two documents may be given different oracles.
* `sort_unstable*` is insertion sort applied after the oracle's permutation, so ties come out in any order.
* Recursion that follows data the program does not bound (fragment spreads, imports, input objects) takes a fuel argument;
  `none` means "not finished yet". Termination is "some fuel gives `some`", divergence is "every fuel gives `none`".
* `&mut` parameters are returned; `Result` is `Except`; panics are explicit values.
* External code is a parameter: the graphql parser, the file system, the edit distance, the number of CPUs (see Trusted base).
* The worker pool is a small-step interleaving semantics: one step is one channel operation, one atomic operation, or one
  compile. Atomics are sequentially consistent (the code uses SeqCst), channel operations are linearizable and FIFO.

## Plan per property

| Property | What is modelled | How it is proved |
|---|---|---|
| C01, C59 | JSON type reference -> modifiers -> text; a TypeScript type parser as spec; value semantics of both sides | induction on the type reference; iff with exact boundary; counterexample value for the other side |
| C02 | input field printing | case analysis on modifiers, depth argument for the boundary |
| C03 | variable unwrapping and printing | case analysis, value semantics |
| C04, C05 | schema conversion | induction over the type list, iff with a decidable well-formedness predicate |
| C06 | three scalar printers | case split on the name |
| C07, C08, C12 | selection collection with fuel, error accumulation | induction on fuel, relation to a validity predicate |
| C09 | positions in errors and warnings | invariant over the collection |
| C10, C11, C17 | traversal tree and conversion to IR | representation invariant relating traversals to GraphQL field collection |
| C13 | fuel | accessibility of the call relation <-> some fuel succeeds |
| C14, C15 | warnings threaded through the collection | exact characterisation by induction |
| C16, C21 | oracle-quantified result | sorted permutations with unique keys are equal |
| C18, C19, C20, C24, C26, C29 | emission as strings via a declaration AST | structural induction on the IR |
| C22, C23 | response semantics and TypeScript semantics | simulation: response relation implies membership |
| C25 | string replacement | lemma on non-overlapping replacement |
| C27 | erasure of arguments/directives | congruence by induction on fuel |
| C28 | operation kinds | case analysis |
| C30, C31, C32, C60 | globals with fuel | reachability by induction, accessibility for termination |
| C33-C39 | import scanning over a file system function | induction on lines and fuel |
| C40, C56 | path model | string lemmas |
| C41, C42, C57, C58 | compile_file over a file system | case analysis, commutation of writes |
| C43-C48 | CLI functions | direct |
| C49-C55 | worker pool transition system | invariants by induction over schedules, explicit schedule for the race, possibility of termination by a measure |
| C61 | location attached to an imported file | invariant over the import scan: every stored location is an import line of the file that imports it last |
| C62, C63 | derived deserializers over JSON trees | relation to a reading by key; irrelevance of order and other members by induction |
| C64, C65, C66 | traces of file operations with crash points | a compile is a program of operations; invariant over traces; each worker's reads are unaffected by others' writes, so the interleaving simulates a sequence of compiles |
| C67 | names of generated declarations | induction on the tree, with an independent definition of shared fields |
| C68 | possibilities of composite fields | induction on the tree: nonempty below valid selections on types with members |
| C69 | arguments and configuration file to text and messages | composition of C15, C35, C39, C41, C45 and the emission lemmas |
| C70 | path of the globals module | component lemmas for path texts |
| C71 | infinite schedules | remaining work is eventually constant, then flags, counters and the set of quitting workers settle one after the other |
| C72 | `main` up to the pool, `parseSchema` | the loader is shown to report the first fault of the file, by induction over types, fields and wrappers |
| C73 | lines, white space, comments | `Spec/Text.lean` defines lines and trimming by relations; the model's scanners meet them |
| C74 | whole program | composition of C32, C41, C43, C51, C55–C58; every failed compile carries an error |
| C75 | generated text, whole | `Spec/Grammar.lean` has a lexer and a recursive reader for the part of TypeScript that types need; the reader is run on the printed text symbolically, piece by piece |
| C76 | generated text, meaning | values of a parsed module (`ModuleAdmits`) compared in both directions with the declarations and so with C22 and C23 |
| C77 | generated text, names | names and references of the parsed module |
| C78 | globals text, grammar | `parseModule` of the text of `compileGlobals`, compared statement by statement with the introspection document (`GlobalStmt`) |
| C79 | globals text, meaning | `ModuleAdmits` of the parsed text compared in both directions with `InputOf`, the values a server takes, by induction on depth |
| C80 | variables | `ModuleAdmits` of the operation's text, its imports read from the globals text (`linked`), against `VariablesOf`; witness for default values |
| C81 | responses, both files | C76 with the enums read from the globals text |
| C82 | compile one file, messages | C08 + C14 + C15, composed with rendering: texts against a specification of notices |
| C83 | compile one file, messages | C14 + C15 composed with rendering |
| C84 | compile one file, messages | case analysis on what the file holds; generation fails only for want of alternatives (induction) |
| C85 | npm package, `postinstall.js` | state machine over the events of the event loop; invariant over all event sequences; witnesses for a broken download, endless redirects and a tarball exchanged after the check |
| C86 | npm package, `download.js` | the same |
| C87 | npm package, the introspection query | GraphQL's execution of the query on a server's introspection system (`Server.answer`), then `decodeIntrospection` (C62) and `Schema.ofJson` (C04, C05), by induction on type references |
| C88 | npm package, `typed-documentnode.d.ts` | the parsed module of C75 against the list of exported types |
| C89 | whole run, disk to disk | C74 (status 0) + C57/C41 (what is on the disk) + C78 (globals module) + C81 and C80 (responses and variables in the texts) |
| C90 | whole run, imported fragments | C74 (every file is fine) + C35/C39 (scopes along imports) + C07 (valid in its own scope), carried to the larger scope |
| C91 | two whole runs | C57's account of a complete run + the error and warning lists of C07/C14/C15, which depend on fragments by name only; relation `SameReport` |
| C92 | data type = possible responses | induction on the depth of the printed tree: what a printed alternative admits is an answer of one of the object types that share it; the object type is found by `__typename` or by pigeonhole over all depths |
| C93 | command line | `parseArgs`: the attributes of `CliArgs` and the loop of clap 4.4.6; every list of words is cut into words of settings and a rest, by strong induction, and both directions follow from what the loop does with one setting |
| C94 | from the server to the types | composition of C87 (download), C93 (words), C45 and C72 (settings, schema file), C74 (one thread leaves nothing), C89 and C92 (types on the disk) for one invocation with status 0 |
| C95 | two compilations | the trees of C10 are determined by what is collected (induction on the depth of the tree; order by C21), variables by the names of their scalar types; then `compileIr` sees equal arguments |
| C96 | editing a document | relation `Rewrites` of edits; simulation: what one side collects the other collects up to repetition and order under different keys; then C95. Witness that two selections of one key may not change places |
| C97 | growing a schema | `Grows` between introspection documents gives `SchemaGrows` between the loaded schemas, under which validity and collected fields carry over; fuel bound by C31's characterisation; then C95. Witness that a new implementation of an interface changes files |
| C98 | running again after the schema has grown | C57's account of two complete runs + C97 per file + C74 (status) + C32 (globals valid: closure of used names under `Grows` and `ValidInputs`); globals file by agreement of the loaded types |
| C99 | running again after an edit | C57's account of both runs; everything before the write depends only on the files read (`Reads`), and two hash orders generate the same (C91); a file outside the affected outputs is never written |
| C100 | the helper types of the npm package | evaluation of conditional types on the document types; the exported type by C75 and C28 |
| C101 | release scripts and installer | `grep` finds exactly the platform's line (the end of one archive's name matches nowhere in another's), `sed` replaces exactly the platform's placeholder; then C85; a smooth installation by induction on redirects and pieces |
| C102 | infinite schedules of single system calls (`Steps`) | the control of the pool is that of C71 with a compiler that takes its results from the run itself, a system call being a turn of nobody; with several threads, the attended-work invariant of C51 along the run; a compile makes finitely many system calls by induction on its program and on the bytes left to write; then C66 |
| C103 | whole runs | C36 and C13 combined into an iff per file that does not mention the hash order; a uniform bound over the files and over the depth of input objects; then C102; the converse by what a complete run knows of every file |
| C104 | a system of processes that share files of bytes (`Shared`) | each process is where a run alone could be (a simulation per system call, since nothing that is read is written); all texts written to one file are equal by determinism, so the bytes up to the position of the process that opened the file last agree with the text |
| C105 | the program of reads and writes of one document (`compileOps`), its accesses as a list | induction on fuel and lines: the accesses of an import line are its target, then the chains through it, then those of the later lines; the lists of chains are put together in dictionary order. Exponential witness by induction on the depth |
| C106 | texts of paths (`RawPath`, after the source of `std::path`) | a text is its head (root or leading `.`) and a list of components; join, pop and with_extension act on the last ones; every text can be rewritten step by step to the text of its components, which gives the converse |
| C107 | assignability of the document types (optional property of function type) | evaluation of both types; both directions of safety by choosing the answers; the exported type by C75 and C28 |
| C108 | Node's `path.join` (POSIX), the paths of the npm package, the files `tar` writes | a directory is a list of parts that `normalize` keeps; then C85 and C101 |
| C109 | nothing new | C92 and C80 for both versions: the same two texts are read as the same two modules |
| C110 | GraphQL's own validation rules (section 5), as a specification | at every selection the program meets, the rule of GraphQL gives what C07 asks for; fragments without cycle are well-founded (pigeonhole), so C13 applies; non-empty abstract types give C22's condition |
| C111 | when a whole project is valid, in terms of GraphQL's rules and the file system | C110 on every file, with the fragments in scope; the globals a document asks for are enums and input objects of the schema; input objects without cycle are well-founded; then C74 (exit status) and C102/C103 (completion) |
| C112 | runs in which other programs change the file system between any two system calls | the program of file operations is run against arbitrary answers (induction on exchanges); an invariant ties every compile under way to answers given during the run; for changes that do not matter a simulation on top of that of C66 |
| C113 | pairs of documents related by permutations at every level; two runs as in C98 | a reordered document is grown from the other one in both directions (C97), so each file compiles to the same text or fails both times; the globals text by comparing collected types up to the order of their fields |
| C114 | nothing new; the place a path leads to, as a specification | paths found by listing are the root followed by proper names; the last name of a place tells documents, outputs and the globals file apart |
| C115 | nothing new | upper bound: the alternatives of a position have the same properties and are merged, and the collected fields of different keys are different selections (induction on the number of selections); lower bound: an alternative with a property of its own is not merged, so each level repeats the next one for each alternative (induction on n) |
| C116 | nothing new | simulation of the two compilations: collection of fields, import scan, scope, tree, generated text; then the two runs through C74 and the determinism lemmas of C16 |
| C117 | nothing new | the two scopes of fragments agree up to positions; the simulation of C116 with the identity renaming gives the same tree, and the determinism lemmas of C16 the same text; then C74 for the status. For moves, path joining is shown to commute with replacing the root |
| C118 | the whole program (as C74) | C74 reduces the status to per-file results and globals; C07/C39/C35 both ways per file; a variable of another kind makes the type a used global, which then is not valid (variable_makes_used); used_kinds and globals_valid for the other direction |
| C119 | the whole program (as C89); GraphQL's execution and merging rule as specification | part_answers: by induction on the size of the response, part of the collected fields is answered by part of the response; place_answers: by induction on the path, with covariance of implementations; answers_scope: the fragment's own scope suffices; then C81 for the fragment's text and C92 for the document's |
| C120 | ir.rs, typescript.rs (as C81, C92); GraphQL's execution and merging rule as specification | more_answers: by induction on the size of the response, with collect_more (induction on the collection of the second version); then C81 for the first text and C92 for the second |
| C121 | schema.rs, ir.rs, typescript.rs (as C81, C92); GraphQL's execution as specification | promised_answers: by induction on the size of the response, responses under the new version are responses under the old; then C92 for the new text and C81 for the old |
| C122 | schema.rs, ir.rs, typescript.rs (as C78, C80); GraphQL's input rules as specification | wider_input: by induction on the depth of the value, what a server took for an input type it still takes; then C80 in both directions |
| C123 | the whole program after loading the schema, GraphQL's validation and merging rules | induction over the positions of a document: the merging rule passes to every position and gives each response key one named type; then C91, C58, C111 and C21 |
| C124 | the whole program after loading the schema; GraphQL's validation rules, values of types | induction over selection sets: contributions with nested selections come only from fragments that fit all objects, so all object types at a position collect the same nested contributions; then C23, C80, C81, C111 and C123 |
| C125 | reading bytes as UTF-8 and as JSON, and the derived deserializers | the parser reads back every derivation of the grammar (induction over derivations) and only derivations (induction over fuel); then C62 and C63 |
| C126 | as C125; the download as C86; whole runs as C72 | if a beginning were a document, the reader would stop at its end also in the whole text (C125), so only white space follows; UTF-8 is prefix-free |
| C127 | tokens and the grammar of executable documents, as a recursive descent parser | soundness by induction on fuel and completeness by induction on the derivation, for tokens and for each rule of the grammar |
| C128 | as C127; whole runs as C116 | the grammar's rules hold of tokens wherever they stand; then C116 with no fragment renamed |
| C129 | as C127; the first bytes of a text as C64 | induction on the tokens of the beginning: its last token is a brace, which no text continues; then definitions end in one place only |
| C130 | as C127; runs as C124 | induction on the grammar; then C124 |
| C131 | the whole program: `Invokes` over bytes of the schema and configuration files and texts of documents | C125, C62, C87, C93, C74, C111, C130, C92 composed |
| C132 | `Model/GraphqlText.lean`, `Model/Cli.lean`, `Model/Compile.lean`; spec `Spec/Caret.lean` (`CaretUnder`, `Marked`, `opening`) | every part's position is that of a token (induction on the grammar), the token's text starts there (induction on tokens), lines and columns locate it on a line of the file (induction on `IsLines`), and C82-C84 say what is printed |
| C133 | the pool, the program, the parsers (as C51, C131) | invariant: all work is the root or a document; with C51 for flat trees nothing is left; then the theorems for complete runs |
| C134 | answers of servers under two versions of a schema, against the module on the disk after one run | induction on the depth of answers, with the document valid for the old version; then C131 |
| C135 | cli.rs:59-154 and 522-557 with a painter as a parameter, the option of cli.rs:413-415 | a relation between plain and coloured texts, closed under concatenation; determinism by the shape of style sequences; case analysis of runs |
| C136 | cli.rs:501-519 with the distance table of strsim 0.10.0 (Model/Distance.lean) | alignments with crossings: one more mistake costs at most one more; loop invariants of the table; reversal |
| C137 | runs as in C74, with any exit status; when a file can be generated, in terms of the schema and the document | C41 and C57 for the outputs, C07 for when a text is generated, C30/C32 for the globals; the example by evaluation of two runs |
| C138 | two runs as in C91, over file systems and trees that agree on the documents and on what they read only | congruence of compiling in what is read (C57), C16 and C91 for hash orders, C74 for status 0 |
| C139 | parseArgs, from_file_parse, from_cli and the whole run | both invocations arrive at configurations that agree on everything the rest of the program looks at |
| C140 | the whole run, the file system as a map from file ids to contents | from C138: both runs leave the same texts; files that are neither outputs nor the globals file are not touched |
| C141 | the whole program: from_cli, the worker pool, compile_file and all it calls, the globals file, print_exit_info | simulation: collecting selections with and without warnings (compile_quiet), each step of a worker (stepWorker_quiet), induction over the schedule, then the end of the run |
| C142 | compile_ir and all of code generation, compile_file, the worker pool, the globals file, print_exit_info | the generator under two settings fails alike and collects the same globals (mutual induction over the selection tree); the generated file, as data, is natural in the spelling of scalars; then the file and the run |
| C143 | nothing new: the runs of C89 and C98 over two states of the files | C95 for each file, with the fragments in scope of C38; the pool and the globals as in C98 |
| C144 | nothing new: the runs of C89 over two directories | the text of C30 as a list of named declarations, each a function of its name by hash-independence; sorted lists with fewer members are sublists; per-file results as in C137 |
| C145 | nothing new: the runs of C89, with files removed in between as in C99 | what a run leaves alone (C89) for the outputs that stay; C144 with the two projects exchanged for the globals file |
| C146 | nothing new: variables and their types as in C03 and C29 | the type of each variable is found by itself; names are added to a set, up to order; the properties are sorted by distinct names |
| C147 | nothing new: the globals file of C30 and the runs of C89 | as in C144: each declaration is a function of the name and of what the schema says about that name |

## Defects found

Where the code does not do what one would expect, the property states the exact boundary and a theorem exhibits a case
on the wrong side. `C51_race_loses_a_file` and the non-termination theorems are about the program as it is written.

| Theorem | What happens |
|---|---|
| `C01_defect_witness` | `[[X]!]` is printed with one list level missing |
| `C02_defect_witness` | input fields with two list levels are printed with the inner modifier only |
| `C12_invalid_fragment_dropped` | an invalid imported fragment is dropped without a message |
| `C13_self_spreading_fragment_diverges`, `C36_cycle_never_returns`, `C31_recursive_input_never_returns` | cyclic fragments, cyclic imports and recursive input objects (legal GraphQL) make the program run forever |
| `C16_narrowed_field_text_depends_on_hash`, `C21_narrowed_field_listed_twice` | a field narrowed by an implementation is printed twice, in an order that depends on hashing |
| `C18_underscores_collide` | names with underscores can clash |
| `C23_merging_unsound` | alternatives with the same property names but different bodies are merged |
| `C25_break_out` | a description containing `**//` ends the doc comment early |
| `C27_skipped_answer_not_admitted` | fields under `@skip`/`@include` are typed as always present |
| `C28_default_export` | subscriptions are compiled against `Query` |
| `C34_defect_witness`, `C70_defect_witness` | prefix `@` with `@/x` leaves the root directory |
| `C37_panics_iff_unterminated`, `C53_panic_hangs_the_program` | an unterminated import line panics, and the program then hangs |
| `C38_duplicate_witness` | of two imported fragments with one name, hashing picks one |
| `C42_write_error_hides_messages` | a write error hides the other messages |
| `C44_warning_summary` | the plural of "warning" follows the number of errors |
| `C46_surprising_corner` | a configured prefix is ignored unless the file itself mentions `useCustomScalars` |
| `C51_race_loses_a_file`, `C51_race_whole_program`, `C51_any_subdirectory_can_be_lost`, `C51_program_without_a_subdirectory`, `C51_success_without_a_subdirectory` | with two or more threads the files of any subdirectory can be left out with exit status 0 |
| `C54_zero_threads_do_nothing` | zero threads compile nothing and succeed |
| `C61_defect_witness` | an error quotes a line of another file |
| `C63_camelcased_schema_path_ignored` | `schemaPath` in the configuration file is ignored |
| `C68_empty_interface_fails` | an interface without implementors prevents generation |
| `C75_reserved_name_witness` | an operation may be called like a reserved word; the file is then not TypeScript |
| `C77_name_clash_witness` | an operation may be called like an enum it selects; the file then imports and declares the same name |
| `C80_default_value_witness` | default values of variables are ignored: `$n: Int! = 5` may be left out for a server but not for the generated type |
| `C82_misspelled_condition_has_no_place`, `C82_demo` | a misspelled type condition is printed as a program error without path or line |
| `C84_empty_file_witness` | the text about an empty file does not say which file |
| `C84_list_of_lists_witness` | `[[Int]!]` is reported as a probable bug; later wrong variables are not reported |
| `C84_unknown_variable_type_witness` | "unknown type for variable" gives the name of the type as that of the variable |
| `C84_no_possible_type_witness` | a selected interface without implementations is reported without path or line |
| `C84_globals_write_error_names_root` | a globals file that cannot be written is reported as the root directory |
| `C85_broken_download_witness` | a download that breaks off ends the installation with status 0 and nothing installed |
| `C85_redirects_without_end` | redirects are followed without end |
| `C85_meddling_witness` | between the check and `tar` another program can exchange the tarball |
| `C86_old_schema_lost_witness` | a failing request deletes the schema downloaded before |
| `C86_broken_download_witness` | a download that breaks off leaves part of a schema with status 0 |
| `C87_never_warned_about_deprecation` | the query does not ask for `isDeprecated`: no deprecation warnings with a downloaded schema |
| `C87_too_deep_witness` | a type with more than seven wrappers makes the downloaded schema unusable |
| `C87_other_query_type_witness` | the query type has to be called `Query` |
| `C91_offered_names_order_witness` | the order in which close names are offered changes from run to run |
| `C92_narrowing_witness` | the type of a field comes from the interface on which it is selected: null is admitted although every implementation says non-null |
| `C92_any_witness` | a non-null custom scalar is `any` by default, which admits null |
| `C92_two_typenames_witness` | two aliases of `__typename` in a shared type may disagree |
| `C96_order_of_one_key_matters` | swapping two selections of one response key can change the documentation in the file |
| `C99_outputs_of_removed_documents_stay` | outputs of removed documents are never deleted |
| `C100_helpers_lose_other_documents` | `DataOf` and `VariablesOf` give `Record<string, unknown>` for mutations and fragments |
| `C107_kinds_confused`, `C107_kinds_confused_witness` | the document of a mutation is accepted where one of a query is expected, whatever its types, and the other way round |
| `C110_unsupported_witness` | valid documents that are rejected: operations without keyword, subscriptions on a type of their own, inline fragments without type condition, introspection fields, variables that are lists of lists |
| `C110_no_members_witness` | no file is generated for a valid document that selects an interface without implementations |
| `C110_unchecked_witness` | documents GraphQL forbids but the program compiles: a variable declared twice, a variable of an object type, an inline fragment that can never apply |
| `C112_mixture_witness` | not a defect, but worth knowing: when files change during a run, a file can be generated from a mixture that never was on the disk |
| `C109_globals_witness` | not a defect: the file of an operation does not change when an enum gets a value, only the globals file does |
| `C108_exported_program` (second case), `C108_demo` | after a download that broke off the exported path names an empty file, with exit status 0 |
| `C104_different_options_witness` | two successful invocations with different options at the same time can leave a file made of both texts |
| `C104_stopped_beside_finished_witness` | an invocation that is stopped empties a file that another one has already reported as written |
| `C105_exponential_witness` | imports are followed again every time they are met: `2 n + 1` small files make one compilation read `2 ^ (n + 1) - 1` times |
| `C114_globals_over_document_witness` | a globals module named like a document makes the program overwrite the document and report success |
| `C115_output_exponential` | nested selections on an interface with type-specific fields generate a text that doubles with every level |

## Conformance suite

`tools/gen_conformance.py` turns the 33 fixtures of `/repo/tests` (schema, sources, options, expected output) into
`Verif/Conformance/Data.lean`; `Suite.lean` runs the model on them in the kernel and compares the text. This is a test of the
model's fidelity, not a proof of any property, and no theorem of the manifest rests on it.
`Cli.lean` replays the other tests of `tests/cli.rs` from the command line on. `Text.lean` reads the documents of all fixtures
and the JSON texts of `tests/cli.rs` with the modelled parsers and compares the results, positions included, with these data;
it found that fragments are said to stand where the token after the dots is, and the model was corrected.

## Wrong programs

The theorems were tested against edited copies of the model (see `seeded/LOG.jsonl`): each edit is a realistic bug; the
project is rebuilt; an edit that breaks a claim but no theorem shows that a theorem is too weak. The log names the theorems
that were tightened or added for such survivors.
