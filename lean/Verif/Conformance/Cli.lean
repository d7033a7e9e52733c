import Verif.Model.Args
import Verif.Model.Json
import Verif.Conformance.Data
/-
The tests of tests/cli.rs that are about starting the program, replayed in the model from the command line on, and the
command lines of the other tests.  As in Replay.lean: a test of the model, not a proof about it.
-/
set_option autoImplicit false

namespace Qlc.Conformance

deriving instance DecidableEq for CliArgs

/-- One test: the words after tests/helpers/cmd.rs:74's, the configuration file, the schema files by path, and what is
expected. -/
structure CliTest where
  words : List String
  config : JsonFile := .notFound "No such file or directory (os error 2)"
  schemas : List (String × JsonFile)
  code : Nat
  output : List String

/-- The schema of the tests, which is found to be well formed; here without types, as these tests have no documents. -/
def emptySchema : JsonFile :=
  .tree (.obj [("data", .obj [("__schema", .obj [("types", .arr [])])])]) "unexpected"

/-- A whole run from the command line on; the directory has no documents. -/
def CliTest.run (t : CliTest) : Option Exit :=
  match parseArgs (["--num-threads=2", "/tmp/qlc"] ++ t.words) with
  | .error _ => none
  | .ok a =>
    match RuntimeConfig.fromCli 4 (fun _ => t.config.asConfig) a with
    | .error m => some (printExitInfo .plain [m])
    | .ok r =>
      let file := (AMap.get? t.schemas r.schemaPath.display).getD (.notFound "No such file or directory (os error 2)")
      match parseSchema r.schemaPath file.asSchema with
      | .error ms => some (printExitInfo .plain ms)
      | .ok _ => some (printExitInfo .plain [])

/-- The assertions of a test. -/
def CliTest.check (t : CliTest) : Bool :=
  match t.run with
  | none => false
  | some e => e.code == t.code && t.output.all (fun o => isInfix o.toList (joinWith "" e.printed).toList)

/-- tests/cli.rs `run_with_empty_dir`. -/
def run_with_empty_dir : CliTest where
  words := []
  schemas := [("/tmp/qlc/schema.json", emptySchema)]
  code := 0
  output := []

/-- tests/cli.rs `run_without_schema_file`. -/
def run_without_schema_file : CliTest where
  words := []
  schemas := []
  code := 1
  output := ["/schema.json`: No such file or directory"]

/-- tests/cli.rs `run_with_broken_config_file`. -/
def run_with_broken_config_file : CliTest where
  words := ["-c", "/tmp/qlc/.qlcrc.json"]
  config := .syntaxError "EOF while parsing a string at line 1 column 23"
  schemas := [("/tmp/qlc/schema.json", emptySchema)]
  code := 1
  output := ["program error: error in config file", ".qlcrc.json`"]

/-- tests/cli.rs `run_with_config_file_missing_schema`. -/
def run_with_config_file_missing_schema : CliTest where
  words := ["-c", "/tmp/qlc/.qlcrc.json"]
  config := .tree (.obj [("schemaFile", .str "not_default_schema.json")]) "unexpected"
  schemas := [("/tmp/qlc/schema.json", emptySchema)]
  code := 1
  output := ["error: could not read `/tmp/qlc/not_default_schema.json`: No such file or directory (os error 2)"]

/-- tests/cli.rs `run_with_invalid_config_file_schema_and_valid_cli_override`. -/
def run_with_valid_cli_override : CliTest where
  words := ["-c", "/tmp/qlc/.qlcrc.json", "-s", "/tmp/qlc/schema.json"]
  config := .tree (.obj [("schemaFile", .str "not_default_schema.json")]) "unexpected"
  schemas := [("/tmp/qlc/schema.json", emptySchema)]
  code := 0
  output := []

/-- tests/cli.rs `run_with_invalid_cli_schema_arg`. -/
def run_with_invalid_cli_schema_arg : CliTest where
  words := ["-s", "not_a_real_file.json"]
  schemas := [("/tmp/qlc/schema.json", emptySchema)]
  code := 1
  output := ["error: could not read `not_a_real_file.json`: No such file or directory (os error 2)"]

/-- tests/cli.rs `run_with_invalid_schema_json_syntax`. -/
def run_with_invalid_schema_json_syntax : CliTest where
  words := []
  schemas := [("/tmp/qlc/schema.json", .syntaxError "EOF while parsing a string at line 1 column 20")]
  code := 1
  output := ["error: malformed schema: JSON parse error: EOF while parsing"]

/-- tests/cli.rs `run_with_wrong_shape_schema_json`. -/
def run_with_wrong_shape_schema_json : CliTest where
  words := []
  schemas := [("/tmp/qlc/schema.json", .tree (.obj [("unexpected", .nat 3)])
    "missing field `data` at line 1 column 19")]
  code := 1
  output := ["error: malformed schema: JSON parse error: missing field `data` at line 1"]

#guard [run_with_empty_dir, run_without_schema_file, run_with_broken_config_file, run_with_config_file_missing_schema,
  run_with_valid_cli_override, run_with_invalid_cli_schema_arg, run_with_invalid_schema_json_syntax,
  run_with_wrong_shape_schema_json].all CliTest.check

-- The tests with `stdout(is_empty())` print nothing.
#guard (run_with_valid_cli_override.run.map (fun e => joinWith "" e.printed)) = some ""

/-- The words of a fixture's test after the first two, where it has any (tests/typescript.rs:46-48,
tests/typescript/field.rs:13-44, tests/cli.rs:142). -/
def wordsOf : List (CliArgs × List String) :=
  [(compile_simple_query.args, []),
    (compile_with_all_module_config.args, ["--global-types-module-name=@web/graphql_globals",
      "--root-dir-import-prefix=@web/", "--typed-graphql-documentnode-module-name=@web/typed_node"]),
    (field_compile_custom_scalar_with_default_names.args, ["--use-custom-scalars"]),
    (field_compile_custom_scalar_with_prefixed_names.args, ["--use-custom-scalars", "--custom-scalar-prefix=Prefix"]),
    (field_compile_fields_without_readonly_marker.args, ["--disable-readonly-types"]),
    (compile_with_use_show_deprecation_warnings.args, ["--show-deprecation-warnings"])]

-- These words are read as the arguments that the fixtures are replayed with.  (There, colours are off: the output of the
-- tests is not a terminal.)
#guard wordsOf.all (fun t => match parseArgs (["--num-threads=2", "/tmp/qlc"] ++ t.2) with
  | .ok a => { a with noColor := true } = t.1
  | .error _ => false)
#guard all.all (fun f => wordsOf.any (fun t => f.args = t.1))

end Qlc.Conformance
