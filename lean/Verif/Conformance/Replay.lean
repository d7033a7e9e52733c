import Verif.Model.Main
/-
Replaying the repository's own fixture suite (/repo/tests) in the model.  This is a test of the model, not a
proof about it: it shows that the model, run as a whole program, produces the files, the exit status
and the messages that the suite expects of the real program.
-/
set_option autoImplicit false

namespace Qlc.Conformance

/-- One test of tests/*.rs: arguments, files, their parsed documents, the directory tree, the expected
`*.ts` files, exit status and pieces of the output. -/
structure Fixture where
  args : CliArgs
  files : List (String × String)
  docs : List (String × Except String Document)
  tree : Entry
  expected : List (String × String)
  code : Nat
  output : List String

/-- The parser, as a table; no two names of the suite are near (tests/schema.rs expects no suggestion). -/
def Fixture.ext (f : Fixture) : Ext where
  parse := fun s => (AMap.get? f.docs s).getD (.error "not a file of the fixture")
  dist := fun a b => if a = b then 0 else 9

/-- The file system of a test. -/
def Fixture.world (f : Fixture) : World where
  resolve := Path.display
  disk := fun id => match AMap.get? f.files id with
    | some c => .ok c
    | none => .error "No such file or directory (os error 2)"
  writeErr := fun _ => none

/-- Whether one list occurs in another. -/
def isInfix (a : List Char) : List Char → Bool
  | [] => a.isEmpty
  | c :: cs => (stripPrefixC a (c :: cs)).isSome || isInfix a cs

/-- A whole run of the program on a fixture under the given schedule (main.rs:8-20). -/
def Fixture.replay (schema : JSchema) (ω : Hash) (fuel : Nat) (sched : List Nat) (f : Fixture) :
    Option Finished :=
  match RuntimeConfig.fromCli 4 (fun _ => .notFound "") f.args with
  | .error m => some ⟨printExitInfo .plain [m], f.world⟩
  | .ok r =>
    match parseSchema r.schemaPath (.parsed schema) with
    | .error ms => some ⟨printExitInfo .plain ms, f.world⟩
    | .ok s =>
      let cfg := CompileConfig.ofRuntime r
      let p := (PoolSt.init f.world r.numberThreads f.tree).run
        (poolCompile (fun _ => ω) fuel f.ext cfg s) r.numberThreads sched
      if p.finished then
        match finishWork ω fuel cfg s p.world r.rootDir p.aggregate with
        | none => none
        | some (ms, w) => some ⟨printExitInfo .plain ms, w⟩
      else none

/-- The assertions of a test (tests/helpers/cmd.rs:160-205 and the `contains` of the test itself). -/
def Fixture.check (schema : JSchema) (ω : Hash) (fuel : Nat) (sched : List Nat) (f : Fixture) : Bool :=
  match f.replay schema ω fuel sched with
  | none => false
  | some fin =>
    fin.exit.code == f.code &&
    f.expected.all (fun e => match fin.world.disk e.1 with
      | .ok c => c == e.2
      | .error _ => false) &&
    f.output.all (fun o => isInfix o.toList (joinWith "" fin.exit.printed).toList)

end Qlc.Conformance
