import Verif.Spec.Files
/-
Ordinary projects (C114): directory listings are listings, imports name `.graphql` files, the globals module is not
named like one, and no two of the touched paths lead to one file through a link.
-/
set_option autoImplicit false

namespace Qlc.Spec

/-- One more component of a path: `.` stays, `..` goes up, a name goes down. -/
def walkStep (here : List String) (c : String) : List String :=
  if c = "." then here else if c = ".." then here.dropLast else here ++ [c]

/-- The place, seen from the root of the file system, that a path leads to from the working directory if there are
no links on the way. -/
def place (cwd : List String) (p : Path) : List String :=
  p.comps.foldl walkStep (if p.abs then [] else cwd)

/-- A name that a directory listing can show. -/
def ProperName (n : String) : Prop := n ≠ "." ∧ n ≠ ".."

/-- The path of an entry of a directory. -/
def entryPath (d : Path) (n : String) : Path := ⟨d.abs, d.comps ++ [n]⟩

/-- The entry is listed in the directory `d`, and what is below it is listed in its directories. -/
inductive Listed : Path → Entry → Prop where
  | file {d : Path} {n : String} : ProperName n → Listed d (.file (entryPath d n))
  | other {d : Path} {n : String} : ProperName n → Listed d (.other (entryPath d n))
  | bad {d : Path} {err : String} : Listed d (.bad err)
  | dir {d : Path} {n : String} {es : List Entry} : ProperName n → (∀ e ∈ es, Listed (entryPath d n) e) →
      Listed d (.dir (entryPath d n) es)
  | badDir {d : Path} {n err : String} : ProperName n → Listed d (.badDir (entryPath d n) err)

/-- The paths that a run reads or writes. -/
inductive Touched (w : World) (cfg : CompileConfig) (rootPath : Path) (root : Entry) : Path → Prop where
  | read {p q : Path} : FoundIn root p → Reads w cfg p q → Touched w cfg rootPath root q
  | output {p : Path} : FoundIn root p → Touched w cfg rootPath root (outputPath p)
  | globals : Touched w cfg rootPath root (globalsPath cfg rootPath)

/-- The name does not end like a document or the output of one. -/
def NoDocumentName (n : String) : Prop :=
  (∀ a, n ≠ a ++ ".graphql") ∧ ∀ a, n ≠ a ++ ".graphql.d.ts"

/-- An ordinary project. -/
structure Ordinary (cwd : List String) (w : World) (cfg : CompileConfig) (rootPath : Path) (root : Entry) : Prop where
  /-- The tree is what listing the root directory shows. -/
  listing : ∃ es, root = .dir rootPath es ∧ ∀ e ∈ es, Listed rootPath e
  /-- Imports name documents. -/
  imports : ∀ p q, FoundIn root p → Reads w cfg p q → q.extension = some "graphql"
  /-- The globals file is not named like a document or an output. -/
  globals : ∃ n, (globalsPath cfg rootPath).fileName = some n ∧ NoDocumentName n
  /-- Touched paths that lead to one file lead to one place. -/
  noLinks : ∀ p q, Touched w cfg rootPath root p → Touched w cfg rootPath root q → w.resolve p = w.resolve q →
    place cwd p = place cwd q

end Qlc.Spec
