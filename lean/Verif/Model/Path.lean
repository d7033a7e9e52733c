import Verif.Model.Basic
/-
`std::path` on Unix, as far as qlc uses it.  A path is its sequence of components
(`Path::components`): repeated separators, trailing separators and inner `.` components are already
gone, which is also what `PathBuf`'s `Eq`/`Hash` (used by graphql.rs:130 as map key) look at.
Simplification: `display` prints the normalised path, so messages differ from Rust's when the user
wrote redundant separators.
-/
set_option autoImplicit false

namespace Qlc

/-- `std::path::PathBuf`: absolute or not, and its components (a leading `.` of a relative path is
kept, as in Rust). -/
structure Path where
  abs : Bool
  comps : List String
  deriving DecidableEq, Repr

/-- Split at every `'/'`. -/
def splitSlash : List Char → List (List Char)
  | [] => [[]]
  | c :: cs =>
    if c = '/' then [] :: splitSlash cs
    else match splitSlash cs with
      | [] => [[c]]
      | l :: ls => (c :: l) :: ls

/-- `Path::components`: drop empty components and every `.` except a leading one of a relative
path. -/
def Path.ofChars (cs : List Char) : Path :=
  let abs := decide (cs.head? = some '/')
  let parts := ((splitSlash cs).filter (fun c => !c.isEmpty)).map String.ofList
  if abs = false ∧ parts.head? = some "." then ⟨false, "." :: parts.tail.filter (· ≠ ".")⟩
  else ⟨abs, parts.filter (· ≠ ".")⟩

/-- `Path::new` / `PathBuf::from`. -/
def Path.ofString (s : String) : Path := Path.ofChars s.toList

/-- `Path::join` with an already parsed second path. -/
def Path.join (a b : Path) : Path :=
  if b.abs then b
  else if a.abs || !a.comps.isEmpty then
    ⟨a.abs, a.comps ++ (if b.comps.head? = some "." then b.comps.tail else b.comps)⟩
  else b

/-- `PathBuf::pop` (drops the last component; no effect on `/` and on the empty path). -/
def Path.pop (p : Path) : Path := ⟨p.abs, p.comps.dropLast⟩

/-- `Path::parent`: `None` for `/` and the empty path. -/
def Path.parent (p : Path) : Option Path := if p.comps.isEmpty then none else some p.pop

/-- `Path::file_name`: the last component unless it is `..` or the lone `.`. -/
def Path.fileName (p : Path) : Option String :=
  match p.comps.getLast? with
  | none => none
  | some c => if c = ".." ∨ c = "." then none else some c

/-- Part of a file name before its last dot, and after it: `rsplit_file_at_dot` of std. -/
def splitLastDot (cs : List Char) : Option (List Char × List Char) :=
  let r := cs.reverse
  match r.dropWhile (· ≠ '.') with
  | [] => none
  | _ :: before => some (before.reverse, (r.takeWhile (· ≠ '.')).reverse)

/-- `Path::file_stem` and `Path::extension` of a file name: a name without a dot, or whose only dot is
the first character, has no extension. -/
def stemExt (name : String) : String × Option String :=
  match splitLastDot name.toList with
  | none => (name, none)
  | some ([], _) => (name, none)
  | some (stem, ext) => (String.ofList stem, some (String.ofList ext))

/-- `Path::extension`. -/
def Path.extension (p : Path) : Option String := p.fileName.bind (fun n => (stemExt n).2)

/-- `Path::with_extension` for a non-empty extension. -/
def Path.withExtension (p : Path) (ext : String) : Path :=
  match p.fileName with
  | none => p
  | some n => ⟨p.abs, p.comps.dropLast ++ [(stemExt n).1 ++ "." ++ ext]⟩

/-- `Path::display`. -/
def Path.display (p : Path) : String :=
  (if p.abs then "/" else "") ++ joinWith "/" p.comps

end Qlc
