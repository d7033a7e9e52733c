import Verif.Spec.Release
import Verif.Model.NpmPath
/-
What the directory of an installed package is, and what is in a published archive.
-/
set_option autoImplicit false

namespace Qlc.Spec

/-- A directory as Node names it: absolute, without `.`, `..` and doubled separators, and without one at the end. -/
inductive NodeDir : String → Prop
  /-- The root directory, to which `/lib` is appended. -/
  | root : NodeDir ""
  | sub {dir name : String} (h : NodeDir dir) (hne : name ≠ "") (hs : '/' ∉ name.toList) (hd : name ≠ ".")
      (hdd : name ≠ "..") : NodeDir (dir ++ "/" ++ name)

/-- make-github-release.sh:13: the archive of a platform has one member, `qlc`, the program that was built for it. -/
def Packs (members : Bytes → List (String × Bytes)) (archive program : String → Bytes) : Prop :=
  ∀ t, members (archive t) = [("qlc", program t)]

/-- pkg/npm/bin/qlc: the package itself brings an empty file in the place of the program. -/
def FreshPackage (pkg : String) (fs : NpmFiles) : Prop := fs (pkg ++ "/bin/qlc") = some []

end Qlc.Spec
