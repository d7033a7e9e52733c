import Verif.Model.Main
/-
The command line: src/cli.rs:284-331, the attributes of `CliArgs`, and what clap 4.4.6 (Cargo.lock) makes of
them.  clap is an external library; modelled is its documented behaviour for the attributes that occur here:
no subcommands, one positional argument, exact option names, every option at most once, values that begin with a
dash only after `=` or `--`.  Simplifications: arguments are valid Unicode, `usize` has 64 bits, and the texts
that clap prints for help, version and wrong usage are left out.
-/
set_option autoImplicit false

namespace Qlc

/-- cli.rs:290-331: the fields of `CliArgs`. -/
inductive ArgId where
  | rootDir | configFile | schemaPath | useCustomScalars | customScalarPrefix | rootDirImportPrefix
  | globalTypesModuleName | typedGraphqlDocumentnodeModuleName | disableReadonlyTypes
  | showDeprecationWarnings | numThreads | noColor
  deriving DecidableEq, Repr

/-- clap's `value_parser!` for the types of the fields. -/
inductive ValueParser where
  | path | string | usize
  deriving DecidableEq, Repr

/-- A parsed value; `set` is the value of a flag (`ArgAction::SetTrue`). -/
inductive ArgVal where
  | path (p : Path)
  | str (s : String)
  | num (n : Nat)
  | set
  deriving DecidableEq, Repr

/-- cli.rs:292-330: the types of the fields decide whether an argument takes a value, and which. -/
def ArgId.parser : ArgId → Option ValueParser
  | .rootDir | .configFile | .schemaPath => some .path
  | .customScalarPrefix | .rootDirImportPrefix | .globalTypesModuleName
  | .typedGraphqlDocumentnodeModuleName => some .string
  | .numThreads => some .usize
  | .useCustomScalars | .disableReadonlyTypes | .showDeprecationWarnings | .noColor => none

/-- What an option name stands for: clap adds `--help`, and `--version` because of `version` in
cli.rs:285. -/
inductive ArgKey where
  | help | version
  | arg (id : ArgId)
  deriving DecidableEq, Repr

/-- cli.rs:294-330: `long`, the field names in kebab case. -/
def longNames : List (String × ArgKey) :=
  [("help", .help), ("version", .version), ("config-file", .arg .configFile),
    ("schema-path", .arg .schemaPath), ("use-custom-scalars", .arg .useCustomScalars),
    ("custom-scalar-prefix", .arg .customScalarPrefix),
    ("root-dir-import-prefix", .arg .rootDirImportPrefix),
    ("global-types-module-name", .arg .globalTypesModuleName),
    ("typed-graphql-documentnode-module-name", .arg .typedGraphqlDocumentnodeModuleName),
    ("disable-readonly-types", .arg .disableReadonlyTypes),
    ("show-deprecation-warnings", .arg .showDeprecationWarnings), ("num-threads", .arg .numThreads),
    ("no-color", .arg .noColor)]

/-- cli.rs:295, 298: `short`, the first letter of the field name. -/
def shortNames : List (Char × ArgKey) :=
  [('h', .help), ('V', .version), ('c', .arg .configFile), ('s', .arg .schemaPath)]

/-- How clap ends the program before qlc's own code runs. -/
inductive ArgStop where
  | help | version | usage
  deriving DecidableEq, Repr

/-- clap's exit codes: 0 for help and version, 2 for wrong usage. -/
def ArgStop.status : ArgStop → Nat
  | .help | .version => 0
  | .usage => 2

/-- `usize::from_str`: an optional plus sign and decimal digits, below 2^64. -/
def parseUsize (cs : List Char) : Option Nat :=
  let ds := match cs with
    | '+' :: r => r
    | _ => cs
  if ds.isEmpty || !ds.all Char.isDigit then none
  else
    let n := ds.foldl (fun acc c => acc * 10 + (c.toNat - '0'.toNat)) 0
    if n < 2 ^ 64 then some n else none

/-- clap's value parsers: `PathBuf` refuses the empty value, `String` takes everything. -/
def ValueParser.parse : ValueParser → List Char → Option ArgVal
  | .path, cs => if cs.isEmpty then none else some (.path (Path.ofChars cs))
  | .string, cs => some (.str (String.ofList cs))
  | .usize, cs => (parseUsize cs).map .num

/-- The arguments seen so far, with their values. -/
abbrev ArgMatches := List (ArgId × ArgVal)

/-- clap's `react` for `ArgAction::Set` and `SetTrue`: an argument that was seen already is an error. -/
def ArgMatches.add (m : ArgMatches) (id : ArgId) (v : ArgVal) : Except ArgStop ArgMatches :=
  if id ∈ m.map Prod.fst then .error .usage else .ok (m ++ [(id, v)])

/-- clap's `react` for an argument with a value. -/
def ArgMatches.addValue (m : ArgMatches) (id : ArgId) (p : ValueParser) (cs : List Char) :
    Except ArgStop ArgMatches :=
  match p.parse cs with
  | none => .error .usage
  | some v => m.add id v

/-- clap_lex `to_long`: the part before the first `=` and the part after it. -/
def splitEq : List Char → List Char × Option (List Char)
  | [] => ([], none)
  | c :: cs => if c = '=' then ([], some cs) else (c :: (splitEq cs).1, (splitEq cs).2)

/-- The values after `--`: all positional; there is one positional argument. -/
def scanTrailing : List String → ArgMatches → Except ArgStop ArgMatches
  | [], m => .ok m
  | w :: ws, m =>
    match m.addValue .rootDir .path w.toList with
    | .error e => .error e
    | .ok m' => scanTrailing ws m'

/-- What the next word is, with respect to its dashes. -/
inductive WordKind where
  | escape
  | long (name : String) (value : Option (List Char))
  | short (c : Char) (rest : List Char)
  | plain
  deriving DecidableEq, Repr

/-- clap_lex `is_escape`, `to_long`, `to_short`: a lone dash is an ordinary value. -/
def wordKind (w : String) : WordKind :=
  match w.toList with
  | ['-', '-'] => .escape
  | '-' :: '-' :: cs => .long (String.ofList (splitEq cs).1) (splitEq cs).2
  | '-' :: c :: cs => .short c cs
  | _ => .plain

/-- clap's `get_matches_with`: the main loop; `pending` is an option that waits for its value. -/
def scanArgs : List String → Option (ArgId × ValueParser) → ArgMatches → Except ArgStop ArgMatches
  | [], none, m => .ok m
  | [], some _, _ => .error .usage
  | w :: ws, pending, m =>
    match wordKind w, pending with
    | .escape, none => scanTrailing ws m
    | .plain, none =>
      match m.addValue .rootDir .path w.toList with
      | .error e => .error e
      | .ok m' => scanArgs ws none m'
    | .plain, some (id, p) =>
      match m.addValue id p w.toList with
      | .error e => .error e
      | .ok m' => scanArgs ws none m'
    | .long name value, none =>
      match longNames.lookup name, value with
      | none, _ => .error .usage
      | some .help, none => .error .help
      | some .version, none => .error .version
      | some .help, some _ => .error .usage
      | some .version, some _ => .error .usage
      | some (.arg id), value =>
        match id.parser, value with
        | none, none =>
          match m.add id .set with
          | .error e => .error e
          | .ok m' => scanArgs ws none m'
        | none, some _ => .error .usage
        | some p, none => scanArgs ws (some (id, p)) m
        | some p, some v =>
          match m.addValue id p v with
          | .error e => .error e
          | .ok m' => scanArgs ws none m'
    | .short c rest, none =>
      match shortNames.lookup c with
      | none => .error .usage
      | some .help => .error .help
      | some .version => .error .version
      | some (.arg id) =>
        match id.parser, rest with
        | none, _ => .error .usage
        | some p, [] => scanArgs ws (some (id, p)) m
        | some p, '=' :: v =>
          match m.addValue id p v with
          | .error e => .error e
          | .ok m' => scanArgs ws none m'
        | some p, v =>
          match m.addValue id p v with
          | .error e => .error e
          | .ok m' => scanArgs ws none m'
    | _, some _ => .error .usage

/-- clap_derive: the value of a path field. -/
def ArgMatches.path (m : ArgMatches) (id : ArgId) : Option Path :=
  match m.lookup id with
  | some (.path p) => some p
  | _ => none

/-- clap_derive: the value of a string field. -/
def ArgMatches.str (m : ArgMatches) (id : ArgId) : Option String :=
  match m.lookup id with
  | some (.str s) => some s
  | _ => none

/-- clap_derive: the value of a number field. -/
def ArgMatches.num (m : ArgMatches) (id : ArgId) : Option Nat :=
  match m.lookup id with
  | some (.num n) => some n
  | _ => none

/-- clap_derive: the value of a flag. -/
def ArgMatches.flag (m : ArgMatches) (id : ArgId) : Bool := decide (id ∈ m.map Prod.fst)

/-- cli.rs:290-331: `CliArgs` from the matches. -/
def CliArgs.ofMatches (m : ArgMatches) : CliArgs where
  rootDir := m.path .rootDir
  configFile := m.path .configFile
  schemaPath := m.path .schemaPath
  useCustomScalars := m.flag .useCustomScalars
  customScalarPrefix := m.str .customScalarPrefix
  rootDirImportPrefix := m.str .rootDirImportPrefix
  globalTypesModuleName := m.str .globalTypesModuleName
  typedGraphqlDocumentnodeModuleName := m.str .typedGraphqlDocumentnodeModuleName
  disableReadonlyTypes := m.flag .disableReadonlyTypes
  showDeprecationWarnings := m.flag .showDeprecationWarnings
  numThreads := m.num .numThreads
  noColor := m.flag .noColor

/-- cli.rs:411 `CliArgs::parse` on the words after the program name; the last step is cli.rs:305
`requires = "use_custom_scalars"`. -/
def parseArgs (words : List String) : Except ArgStop CliArgs :=
  match scanArgs words none [] with
  | .error e => .error e
  | .ok m =>
    if m.flag .customScalarPrefix && !m.flag .useCustomScalars then .error .usage
    else .ok (.ofMatches m)

/-- How an invocation of the program ends: stopped by the argument parser with this status, or after running
qlc's own code. -/
inductive Invocation where
  | stopped (status : Nat)
  | ran (f : Finished)

/-- main.rs:8-20 with cli.rs:410-415: parse the arguments, switch colours off if asked to, and run.  `colours` are
the colours that the terminal and the environment suggest. -/
inductive Invokes (ω : Path → Hash) (ω' : Hash) (fuel : Nat) (ext : Ext) (colours : Paint) (cpus : Nat)
    (readConfig : Path → ConfigRead) (readSchema : Path → SchemaRead) (tree : Path → Entry)
    (w : World) (words : List String) : Invocation → Prop where
  | stopped (e : ArgStop) (h : parseArgs words = .error e) :
      Invokes ω ω' fuel ext colours cpus readConfig readSchema tree w words (.stopped e.status)
  | ran (a : CliArgs) (f : Finished) (h : parseArgs words = .ok a)
      (hr : Runs ω ω' fuel ext (if a.noColor then .plain else colours) cpus readConfig readSchema tree w a f) :
      Invokes ω ω' fuel ext colours cpus readConfig readSchema tree w words (.ran f)

end Qlc
