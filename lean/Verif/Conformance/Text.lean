import Verif.Conformance.Suite
import Verif.Conformance.Cli
import Verif.Model.GraphqlText
import Verif.Model.JsonText
/-
The fixture suite once more, with the documents read by the modelled parser from the texts of the files, not from the
table that tools/gen_conformance.py writes.  As in Suite.lean: a test of the model, not a proof about it.
-/
set_option autoImplicit false

namespace Qlc.Conformance

deriving instance Repr for Json
deriving instance Repr for Selection
deriving instance Repr for FragmentDef
deriving instance Repr for Definition

/-- Lines and columns, both from 1. -/
def countPos : Pos → List Char → Pos
  | p, [] => p
  | p, c :: cs => countPos (if c = '\n' then ⟨p.line + 1, 1⟩ else ⟨p.line, p.column + 1⟩) cs

/-- The parser of the tests: positions are lines and columns of what is left of the text. -/
def textParser : ParserSetup where
  place := fun all rest => countPos ⟨1, 1⟩ (all.take (all.length - rest.length))
  refuse := fun _ => false
  say := fun _ => "Parse error at 2:19"

/-- The table of a test is what the modelled parser reads. -/
def Fixture.parses (f : Fixture) : Bool :=
  f.docs.all (fun d => match parseQuery textParser d.1, d.2 with
    | .ok a, .ok b => toString (repr a) == toString (repr b)
    | .error a, .error b => a == b
    | _, _ => false)

/-- The table of a test, as the modelled parser reads it. -/
def Fixture.fromText (f : Fixture) : Fixture :=
  { f with docs := f.files.map (fun x => (x.2, parseQuery textParser x.2)) }

#guard all.all Fixture.parses
#guard all.all (fun f => (f.fromText).check schemaJson .inOrder 60 (turns 150))
/-- A test of tests/cli.rs with the text of its configuration file or schema in place of the tree. -/
def CliTest.reads (text message : String) (file : JsonFile) : Bool :=
  match JsonFile.ofBytes (fun _ => message) text.toUTF8.toList, file with
  | .tree a m, .tree b m' => toString (repr a) == toString (repr b) && m == m'
  | .syntaxError m, .syntaxError m' => m == m'
  | _, _ => false

-- The texts that tests/cli.rs:73-130 writes.
#guard CliTest.reads "{ \"notValidJson: true }" "EOF while parsing a string at line 1 column 23"
  run_with_broken_config_file.config
#guard CliTest.reads "{ \"schemaFile\": \"not_default_schema.json\" }" "unexpected"
  run_with_config_file_missing_schema.config
#guard run_with_invalid_schema_json_syntax.schemas.all (fun s =>
  CliTest.reads "{ \"notvalidJs: true " "EOF while parsing a string at line 1 column 20" s.2)
#guard run_with_wrong_shape_schema_json.schemas.all (fun s =>
  CliTest.reads "{ \"unexpected\": 3 }" "missing field `data` at line 1 column 19" s.2)

end Qlc.Conformance
