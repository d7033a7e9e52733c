import Verif.Spec.Pool
import Verif.Model.Cli
/-
Projects without subdirectories.
-/
set_option autoImplicit false

namespace Qlc.Spec

/-- The root is a directory that holds files, and entries that are neither files nor directories, only; its listing can be
read. -/
def NoSubdirs (root : Entry) : Prop :=
  ∃ d es, root = .dir d es ∧ ∀ e ∈ es, (∃ p, e = .file p) ∨ ∃ p, e = .other p

/-- Some document lies in the tree. -/
def HasDocument (root : Entry) : Prop := ∃ p, FoundIn root p

/-- How many threads are meant: the command line decides, then the configuration file, then the machine, up to eight. -/
def threadsMeant (a : CliArgs) (c : ConfigFile) (cpus : Nat) : Nat :=
  match a.numThreads with
  | some n => n
  | none =>
    match c.numThreads with
    | some n => n
    | none => if cpus < 8 then cpus else 8

end Qlc.Spec
