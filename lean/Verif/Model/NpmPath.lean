import Verif.Model.Release
import Verif.Model.Path
/-
Model of the paths in the npm package: pkg/npm/lib/index.js, the `BIN_PATH` of pkg/npm/lib/postinstall.js and the `bin`
of pkg/npm/package.json, with Node's `path.join` for POSIX (lib/path.js of Node, from its documented behaviour).
-/
set_option autoImplicit false

namespace Qlc

/-- Node's `normalizeString`: one part of a path between separators; `stack` has the parts so far, the last one first.
`above`: the path is relative, so it may begin with `..`. -/
def nodePart (above : Bool) (stack : List (List Char)) (part : List Char) : List (List Char) :=
  if part = [] ∨ part = ['.'] then stack
  else if part = ['.', '.'] then
    match stack with
    | [] => if above then [part] else []
    | top :: rest => if top ≠ ['.', '.'] then rest else if above then part :: stack else stack
  else part :: stack

/-- Parts with separators between them. -/
def slashed : List (List Char) → List Char
  | [] => []
  | [p] => p
  | p :: q :: rest => p ++ '/' :: slashed (q :: rest)

/-- Node's `path.normalize`. -/
def nodeNormalize (path : String) : String :=
  let cs := path.toList
  let absolute := cs.head? = some '/'
  let trailing := cs.getLast? = some '/'
  let body := slashed ((splitSlash cs).foldl (nodePart (!absolute)) []).reverse
  if body = [] then if absolute then "/" else if cs ≠ [] ∧ trailing then "./" else "."
  else String.ofList ((if absolute then ['/'] else []) ++ body ++ (if trailing then ['/'] else []))

/-- Node's `path.join`. -/
def nodeJoin (parts : List String) : String :=
  match parts.filter (fun p => p ≠ "") with
  | [] => "."
  | ps => nodeNormalize (joinWith "/" ps)

/-- Node's `__dirname` in the scripts of a package that is in the directory `pkg`. -/
def scriptDir (pkg : String) : String := pkg ++ "/lib"

/-- index.js:3: what `require("@notarize/qlc-cli")` is. -/
def exportedPath (pkg : String) : String := nodeJoin [scriptDir pkg, "../bin/qlc"]

/-- postinstall.js:16 `BIN_PATH`. -/
def binPath (pkg : String) : String := nodeJoin [scriptDir pkg, "../bin"]

/-- postinstall.js:111: the file that is made executable. -/
def chmodPath (pkg : String) : String := nodeJoin [binPath pkg, "qlc"]

/-- package.json:14: what npm links `qlc` to. -/
def linkedPath (pkg : String) : String := pkg ++ "/" ++ "bin/qlc"

/-- The files of a machine. -/
abbrev NpmFiles := String → Option Bytes

/-- postinstall.js:68: `tar xf … -C dir` with these members. -/
def untarTo (dir : String) (members : List (String × Bytes)) (fs : NpmFiles) : NpmFiles :=
  members.foldl (fun fs m id => if id = dir ++ "/" ++ m.1 then some m.2 else fs id) fs

/-- What the files are after an installation: `members` is what `tar` finds in an archive.  (The tarball itself, which
is in the current directory, is left out.) -/
def Install.files (members : Bytes → List (String × Bytes)) (pkg : String) (s : Install) (before : NpmFiles) : NpmFiles :=
  s.unpacked.foldl (fun fs b => untarTo (binPath pkg) (members b) fs) before

end Qlc
