import Verif.Spec.Imports
import Verif.Model.Steps
/-
Independent specification of which files a program reads and writes, and of the chains of import lines
that lead from one file to another.
-/
set_option autoImplicit false

namespace Qlc.Spec

/-- One access to the file system. -/
inductive Access where
  | read (p : Path)
  | wrote (p : Path)
deriving DecidableEq

/-- The accesses a program makes when it runs alone in a world, in order. -/
def accesses {α : Type} (w : World) : Ops α → List Access
  | .ret _ => []
  | .read p k => .read p :: accesses w (k (w.read p))
  | .write p c k => .wrote p :: accesses (w.write p c).2 (k (w.write p c).1)

/-- `is` is a chain of import lines from `file` (with these contents) to `q`: its first number picks an
import line of `file` (counting from 0), its second one picks an import line of the file that line
names, and so on; the last line names `q`.  All files on the way, but not necessarily `q`, are
readable. -/
inductive Leads (w : World) (cfg : CompileConfig) : Path → String → List Nat → Path → Prop where
  | one {file contents i il q} : (importsOf contents)[i]? = some il →
      getFilePathOfFragment cfg il.after file.pop = some q → Leads w cfg file contents [i] q
  | more {file contents i il p c is q} : (importsOf contents)[i]? = some il →
      getFilePathOfFragment cfg il.after file.pop = some p → w.read p = .ok c →
      Leads w cfg p c is q → Leads w cfg file contents (i :: is) q

/-- `cs` lists all chains from `file`, each once, with the files they lead to, in the order of a walk
that follows the first import line to the end before it turns to the second (the order of a
dictionary on the chains). -/
def AllChains (w : World) (cfg : CompileConfig) (file : Path) (contents : String)
    (cs : List (List Nat × Path)) : Prop :=
  cs.Pairwise (fun a b => List.Lex (· < ·) a.1 b.1) ∧
    ∀ is q, (is, q) ∈ cs ↔ Leads w cfg file contents is q

end Qlc.Spec
