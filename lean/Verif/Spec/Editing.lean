import Verif.Spec.Files
import Verif.Spec.Crash
/-
Independent specification of runs during which other programs change files (C112).
-/
set_option autoImplicit false

namespace Qlc.Spec

/-- One question to the file system, with the answer. -/
inductive Exchange where
  | read (p : Path) (answer : Except String String)
  | write (p : Path) (text : String) (answer : Option String)

/-- Whatever the answers are: with these exchanges the program comes from the first position to the second. -/
inductive Talks {α : Type} : Ops α → List Exchange → Ops α → Prop where
  | here (o : Ops α) : Talks o [] o
  | read {p : Path} {k : Except String String → Ops α} {r : Except String String} {tr : List Exchange} {o : Ops α} :
      Talks (k r) tr o → Talks (.read p k) (.read p r :: tr) o
  | write {p : Path} {c : String} {k : Option String → Ops α} {e : Option String} {tr : List Exchange} {o : Ops α} :
      Talks (k e) tr o → Talks (.write p c k) (.write p c e :: tr) o

/-- The text is generated from answers: the document is what reading its file, the first thing done, yielded, and
every fragment in scope is the one definition of a text that reading some file yielded. -/
def GeneratedFrom (ω : Hash) (fuel : Nat) (ext : Ext) (cfg : CompileConfig) (schema : Schema) (p : Path)
    (answers : List Exchange) (text : String) : Prop :=
  ∃ contents d frags op ws c,
    answers.head? = some (.read p (.ok contents)) ∧ ext.parse contents = .ok [d] ∧
    (∀ n f, AMap.get? frags n = some f → f.name = n ∧
      ∃ q t, .read q (.ok t) ∈ answers ∧ ext.parse t = .ok [.fragment f]) ∧
    Operation.compile ω fuel ⟨schema, cfg.showDeprecationWarnings, frags⟩ d = some (.ok op, ws) ∧
    compileIr ω op cfg.toTsConfig schema = .ok c ∧ text = c.contents

/-- What happens next: a worker makes a step (writing at most so many bytes), or other programs change the file
system. -/
inductive Move where
  | worker (i bytes : Nat)
  | others (change : World → World)

/-- One move. -/
def move (compile : Path → Ops FileOutcome) (threads : Nat) (F : FinePool) : Move → FinePool
  | .worker i n => F.step compile threads (i, n)
  | .others change => { F with pool := { F.pool with world := change F.pool.world } }

/-- The moves, one after the other. -/
def disturbed (compile : Path → Ops FileOutcome) (threads : Nat) (F : FinePool) (moves : List Move) : FinePool :=
  moves.foldl (move compile threads) F

/-- At some moment of the run the file system answered like this. -/
def OnceAnswered (compile : Path → Ops FileOutcome) (threads : Nat) (F : FinePool) (moves : List Move) :
    Exchange → Prop
  | .read q r => ∃ before after, moves = before ++ after ∧
      (disturbed compile threads F before).pool.world.read q = r
  | .write _ _ _ => False

/-- A file that matters to the workers: one that is read, or an output. -/
def Matters (w : World) (cfg : CompileConfig) (root : Entry) (id : String) : Prop :=
  IsOutput w root id ∨ ∃ p q, FoundIn root p ∧ Reads w cfg p q ∧ id = w.resolve q

/-- Other programs leave alone which file a path names, which files can be written, and the files that matter. -/
def Unrelated (w : World) (cfg : CompileConfig) (root : Entry) (change : World → World) : Prop :=
  ∀ v, (change v).resolve = v.resolve ∧ (change v).writeErr = v.writeErr ∧
    ∀ id, Matters w cfg root id → (change v).disk id = v.disk id

/-- The steps of the workers alone. -/
def ownSteps : List Move → List (Nat × Nat)
  | [] => []
  | .worker i n :: rest => (i, n) :: ownSteps rest
  | .others _ :: rest => ownSteps rest

end Qlc.Spec
