import Verif.Model.Compile
/-
`std::path` on Unix as operations on the text of a path.  `PathBuf` keeps the text that it was made from;
the model elsewhere keeps the components (`Path`).  `Props/RawPath.lean` shows that the operations agree.
-/
set_option autoImplicit false

namespace Qlc

/-- `Path::is_absolute` on Unix. -/
def rawAbs (t : List Char) : Bool := decide (t.head? = some '/')

/-- `PathBuf::push` (and so `Path::join`): an absolute second path replaces the first; otherwise a
separator is put between them unless the first is empty or ends in one. -/
def rawJoin (a b : List Char) : List Char :=
  if rawAbs b then b
  else if a = [] ∨ a.getLast? = some '/' then a ++ b
  else a ++ '/' :: b

/-- `Components::include_cur_dir`: the path begins with the component `.`. -/
def rawCurDir : List Char → Bool
  | ['.'] => true
  | '.' :: '/' :: _ => true
  | _ => false

/-- `Components::len_before_body`: the root separator or the leading `.`. -/
def rawHeadLen (t : List Char) : Nat := if rawAbs t || rawCurDir t then 1 else 0

/-- The last component of a reversed text, `Components::parse_next_component_back`: the text behind the last
separator, itself reversed. -/
def lastComp (r : List Char) : List Char := r.takeWhile (· ≠ '/')

/-- What is before the last component and its separator, reversed. -/
def beforeComp (r : List Char) : List Char := (r.dropWhile (· ≠ '/')).tail

theorem beforeComp_length (c : Char) (r : List Char) : (beforeComp (c :: r)).length < (c :: r).length := by
  have h : ((c :: r).dropWhile (· ≠ '/')).length ≤ (c :: r).length :=
    (List.dropWhile_suffix _).length_le
  unfold beforeComp
  rw [List.length_tail]
  have : (c :: r).length = r.length + 1 := rfl
  omega

/-- `Components::trim_right` on the reversed body: empty components and `.` are dropped from the end. -/
def trimBack : List Char → List Char
  | [] => []
  | c :: r =>
    if lastComp (c :: r) = [] ∨ lastComp (c :: r) = ['.'] then trimBack (beforeComp (c :: r)) else c :: r
termination_by r => r.length
decreasing_by exact beforeComp_length c r

/-- The body of a path, reversed and without redundant components at its end. -/
def rawBody (t : List Char) : List Char := trimBack (t.drop (rawHeadLen t)).reverse

/-- `PathBuf::pop`: truncate to `Path::parent`, which is what `Components::as_path` yields after
`next_back`; no effect if the path has no component or is a root. -/
def rawPop (t : List Char) : List Char :=
  match rawBody t with
  | [] => if rawCurDir t then [] else t
  | c :: r => t.take (rawHeadLen t) ++ (trimBack (beforeComp (c :: r))).reverse

/-- `Path::file_name`: the last component, unless there is none or it is `..`. -/
def rawFileName (t : List Char) : Option (List Char) :=
  match rawBody t with
  | [] => none
  | c :: r => if lastComp (c :: r) = ['.', '.'] then none else some (lastComp (c :: r)).reverse

/-- `Path::extension`. -/
def rawExtension (t : List Char) : Option (List Char) :=
  (rawFileName t).bind (fun n => (stemExt (String.ofList n)).2.map String.toList)

/-- `PathBuf::set_extension` (and so `Path::with_extension`) for a non-empty extension: the text is cut off
behind the stem of the file name. -/
def rawWithExtension (t ext : List Char) : List Char :=
  match rawFileName t with
  | none => t
  | some n => t.take (rawHeadLen t) ++ ((rawBody t).dropWhile (· ≠ '/')).reverse ++
      (stemExt (String.ofList n)).1.toList ++ '.' :: ext

/-- graphql.rs:112-123: resolving an import path, on texts. -/
def rawResolveImport (pre : Option String) (root importPath currentDir : List Char) : List Char :=
  match pre.bind (fun p => stripPrefixC p.toList importPath) with
  | some rest => rawJoin root rest
  | none => if importPath.head? = some '.' then rawJoin currentDir importPath else rawJoin root importPath

/-- graphql.rs:256, on texts. -/
def rawOutputPath (t : List Char) : List Char := rawWithExtension t "graphql.d.ts".toList

/-- graphql.rs:280-292, on texts. -/
def rawGlobalsPath (pre : Option String) (moduleName : String) (root : List Char) : List Char :=
  let base := match pre.bind (fun p => stripPrefixC p.toList moduleName.toList) with
    | some rest => rawJoin root rest
    | none => rawJoin root moduleName.toList
  if (rawExtension base).isSome then base else rawWithExtension base "ts".toList

end Qlc
