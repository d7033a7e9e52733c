import Verif.Spec.Npm
import Verif.Model.Release
/-
What the release scripts may rely on: the shape of a version number and of a digest, and what a directory
listing contains.
-/
set_option autoImplicit false

namespace Qlc.Spec

/-- A version number as Cargo accepts it: letters, digits, dots, hyphens and plus signs. -/
def IsVersion (v : String) : Prop :=
  ∀ c ∈ v.toList, c.isAlphanum = true ∨ c = '.' ∨ c = '-' ∨ c = '+'

/-- A digest as `sha256sum` and Node print it: hexadecimal digits. -/
def IsDigest (s : String) : Prop :=
  s.toList ≠ [] ∧ ∀ c ∈ s.toList, c ∈ "0123456789abcdef".toList

/-- What the shell may find in the directory of archives: the archives, in some order, and perhaps
`checksums.txt`, which `tee` may have made already. -/
def Listing (archives files : List (String × Bytes)) : Prop :=
  files.Perm archives ∨ ∃ b, files.Perm (("checksums.txt", b) :: archives)

/-- An installation in which the servers redirect `n` times and then send `chunks`, and nothing fails. -/
def smoothInstall (n : Nat) (chunks : List Bytes) : List InstallEvent :=
  List.replicate n (.respond 302 true) ++ [.binDir true, .respond 200 true] ++ chunks.map .chunk ++
    [.finish, .read true, .tar 0, .chmod true, .unlinked true]

end Qlc.Spec
