import Verif.Spec.Pool
import Verif.Spec.Imports
import Verif.Spec.Selections
/-
Independent vocabulary for runs over a whole directory tree: which files compiling a file reads, which
files are written, and when the two do not meet.
-/
set_option autoImplicit false

namespace Qlc.Spec

/-- Compiling `p` reads `q`: `q` is `p`, or an import line of a readable file that is read names it. -/
inductive Reads (w : World) (cfg : CompileConfig) (p : Path) : Path → Prop where
  | self : Reads w cfg p p
  | imported {q : Path} {contents : String} {il : ImportLine} {r : Path} : Reads w cfg p q →
      w.read q = .ok contents → Imports cfg q contents il r → Reads w cfg p r

/-- `id` is the file that the generated text of some file of the tree goes to. -/
def IsOutput (w : World) (root : Entry) (id : String) : Prop :=
  ∃ p, FoundIn root p ∧ id = w.resolve (outputPath p)

/-- Nothing that is read when a file of the tree is compiled is an output. -/
def NoOutputRead (w : World) (cfg : CompileConfig) (root : Entry) : Prop :=
  ∀ p q, FoundIn root p → Reads w cfg p q → ¬ IsOutput w root (w.resolve q)

/-- The outputs of different files are different files. -/
def OutputsDistinct (w : World) (root : Entry) : Prop :=
  ∀ p q, FoundIn root p → FoundIn root q → w.resolve (outputPath p) = w.resolve (outputPath q) → p = q

/-- The file that the globals go to. -/
def globalsId (w : World) (cfg : CompileConfig) (rootPath : Path) : String :=
  w.resolve (globalsPath cfg rootPath)

/-- The globals file is not an output, and is not read when a file of the tree is compiled. -/
def GlobalsApart (w : World) (cfg : CompileConfig) (rootPath : Path) (root : Entry) : Prop :=
  ¬ IsOutput w root (globalsId w cfg rootPath) ∧
    ∀ p q, FoundIn root p → Reads w cfg p q → w.resolve q ≠ globalsId w cfg rootPath

/-- Two file systems have the same paths, write errors and contents. -/
def SameFiles (w w' : World) : Prop :=
  w'.resolve = w.resolve ∧ w'.writeErr = w.writeErr ∧ ∀ id, w'.disk id = w.disk id

/-- `f` is the only definition of a file that compiling `p` imports. -/
def ImportedFragment (ext : Ext) (w : World) (cfg : CompileConfig) (p : Path) (contents : String)
    (f : FragmentDef) : Prop :=
  ∃ q c, Loads w cfg p contents q ∧ w.read q = .ok c ∧ ext.parse c = .ok [.fragment f]

/-- The fragments in scope are the imported ones, under their own names. -/
def InScope (ext : Ext) (w : World) (cfg : CompileConfig) (p : Path) (contents : String)
    (frags : Frags) : Prop :=
  ∀ n f, AMap.get? frags n = some f ↔ f.name = n ∧ ImportedFragment ext w cfg p contents f

/-- What it takes for the text generated for `p` not to depend on hash orders: imported fragments have
different names and are valid, no response key has two named types, and no variable is declared twice. -/
def HashProof (ext : Ext) (schema : Schema) (w : World) (cfg : CompileConfig) (p : Path) : Prop :=
  ∀ contents d, w.read p = .ok contents → ext.parse contents = .ok [d] →
    (∀ f f', ImportedFragment ext w cfg p contents f → ImportedFragment ext w cfg p contents f' →
      f.name = f'.name → f = f') ∧
    (∀ frags, InScope ext w cfg p contents frags → FragsValid schema frags ∧
      ∀ P, rootType d = some P → OneTypePerKey schema frags P [itemsOf d]) ∧
    ((varsOf d).map VarDef.name).Nodup

/-- No input object lists a field twice (true of every schema loaded from JSON). -/
def InputFieldsOnce (schema : Schema) : Prop :=
  ∀ n t name fields, schema.getType n = some t → t.definition = .inputObject name fields →
    (fields.map Prod.fst).Nodup

/-- The whole program after the schema has been loaded: all workers have exited with no work left, and
the globals file has been dealt with. -/
structure RunsTo (ω : Path → Hash) (ω' : Hash) (fuel : Nat) (ext : Ext) (cfg : CompileConfig)
    (schema : Schema) (rootPath : Path) (root : Entry) (threads : Nat) (w : World) (s : PoolSt World)
    (ms : List Msg) (w' : World) : Prop where
  reached : ∃ sched, ReachedBy (poolCompile ω fuel ext cfg schema) w threads root sched s
  finished : s.finished = true
  nothingLeft : pending s = []
  globals : finishWork ω' fuel cfg schema s.world rootPath s.aggregate = some (ms, w')

end Qlc.Spec
