import Verif.Model.Compile
/-
Independent specification of import lines, import targets and the import closure.
-/
set_option autoImplicit false

namespace Qlc.Spec

/-- A line of white space only. -/
def isBlank (l : List Char) : Bool := l.all isWs

/-- The leading comment block of a file: its longest prefix of lines that are blank or start with
`#`. -/
def commentBlock (ls : List (List Char)) : List (List Char) :=
  ls.takeWhile (fun l => isBlank l || decide (l.head? = some '#'))

/-- An import line: its number (from 1), its text, and its text after `#import "`. -/
structure ImportLine where
  number : Nat
  line : List Char
  after : List Char

/-- An import line if the given numbered line is one. -/
def importLine? (l : List Char) (number : Nat) : Option ImportLine :=
  if "#import \"".toList <+: l then some ⟨number, l, l.drop 9⟩ else none

/-- The import lines of a file: the lines of the leading comment block that start with
`#import "`. -/
def importLines (ls : List (List Char)) : List ImportLine :=
  ((commentBlock ls).zipIdx 1).filterMap (fun e => importLine? e.1 e.2)

/-- The import lines of file contents. -/
def importsOf (contents : String) : List ImportLine := importLines (linesC contents.toList)

/-- Where an import line is reported: its number, its text, column 9. -/
def ImportLine.loc (il : ImportLine) : Location :=
  ⟨toString il.number, String.ofList il.line, none, some 9⟩

/-- The error for an import line of `importer` that names an unreadable file. -/
def unreadable (importer : Path) (il : ImportLine) (target : Path) (err : String) : Msg :=
  ⟨.compileError, some ⟨importer, some il.loc⟩, "could not read `" ++ target.display ++ "`: " ++ err⟩

/-- What to do about one import line of `file`: crash if the quote is not closed, report an unreadable
target, otherwise visit the target (`visit`) and record it. -/
def handleImport (read : Path → Except String String) (target : List Char → Option Path)
    (file : Path) (visit : Path → String → ImportSt → Option (PanicOr ImportSt)) (il : ImportLine)
    (s : ImportSt) : Option (PanicOr ImportSt) :=
  match target il.after with
  | none => some .panic
  | some q =>
    match read q with
    | .error e => some (.done ⟨s.imports, s.messages ++ [unreadable file il q e]⟩)
    | .ok contents =>
      match visit q contents s with
      | none => none
      | some .panic => some .panic
      | some (.done s') => some (.done ⟨AMap.insert s'.imports q (contents, il.loc), s'.messages⟩)

/-- Handle import lines one after the other, stopping at a crash. -/
def handleAll (step : ImportLine → ImportSt → Option (PanicOr ImportSt)) :
    List ImportLine → ImportSt → Option (PanicOr ImportSt)
  | [], s => some (.done s)
  | il :: rest, s =>
    match step il s with
    | none => none
    | some .panic => some .panic
    | some (.done s') => handleAll step rest s'

/-- A path text looked at from a directory: absolute texts stand for themselves, relative ones are
appended component by component. -/
def under (dir : Path) (text : List Char) : Path :=
  if text.head? = some '/' then Path.ofChars text
  else if dir.abs = false ∧ dir.comps = [] then Path.ofChars text
  else ⟨dir.abs, dir.comps ++
    (((splitSlash text).map String.ofList).filter (fun c => decide (c ≠ "" ∧ c ≠ ".")))⟩

/-- `file` (with these contents) has an import line that names `target`. -/
def Imports (cfg : CompileConfig) (file : Path) (contents : String) (il : ImportLine)
    (target : Path) : Prop :=
  il ∈ importsOf contents ∧ getFilePathOfFragment cfg il.after file.pop = some target

/-- `file` leads to the readable file `q` through import lines of readable files. -/
inductive Loads (w : World) (cfg : CompileConfig) : Path → String → Path → Prop where
  | direct {file contents il q c} : Imports cfg file contents il q → w.read q = .ok c →
      Loads w cfg file contents q
  | trans {file contents il p c q} : Imports cfg file contents il p → w.read p = .ok c →
      Loads w cfg p c q → Loads w cfg file contents q

/-- `m` is the error for an unreadable import of `file` or of a file it loads. -/
inductive ImportErr (w : World) (cfg : CompileConfig) : Path → String → Msg → Prop where
  | here {file contents il q e} : Imports cfg file contents il q → w.read q = .error e →
      ImportErr w cfg file contents (unreadable file il q e)
  | there {file contents il p c m} : Imports cfg file contents il p → w.read p = .ok c →
      ImportErr w cfg p c m → ImportErr w cfg file contents m

/-- `file` or a file it loads has an import line without closing quote. -/
inductive Broken (w : World) (cfg : CompileConfig) : Path → String → Prop where
  | here {file contents il} : il ∈ importsOf contents → '"' ∉ il.after →
      Broken w cfg file contents
  | there {file contents il p c} : Imports cfg file contents il p → w.read p = .ok c →
      Broken w cfg p c → Broken w cfg file contents

/-- `(q, cq)` is a readable file imported by `(p, cp)`. -/
def ImportEdge (w : World) (cfg : CompileConfig) (q p : Path × String) : Prop :=
  ∃ il, Imports cfg p.1 p.2 il q.1 ∧ w.read q.1 = .ok q.2

end Qlc.Spec
