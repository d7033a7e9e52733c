import Verif.Model.Npm
/-
Model of the release scripts in .circleci/bin: what they publish on GitHub and on npm, and where
pkg/npm/lib/postinstall.js looks for it.  The working directory of the jobs is `/opt/qlc`
(.circleci/config.yml:22-40).  Building the binaries, `tar` and SHA-256 are parameters.
-/
set_option autoImplicit false

namespace Qlc

/-- get-release-platforms.sh:4-9 `RELEASE_PLATFORMS`. -/
def releasePlatforms : List String :=
  ["x86_64-unknown-linux-musl", "aarch64-unknown-linux-musl", "x86_64-apple-darwin", "aarch64-apple-darwin"]

/-- `sed s/pat/rep/g` for a pattern without special characters, on text in which no match could span
lines; `skip` characters belong to a match that has been replaced. -/
def replaceAll (pat rep : List Char) : Nat → List Char → List Char
  | _, [] => []
  | k + 1, _ :: cs => replaceAll pat rep k cs
  | 0, c :: cs =>
    if pat.isPrefixOf (c :: cs) then rep ++ replaceAll pat rep (pat.length - 1) cs
    else c :: replaceAll pat rep 0 cs

/-- `sed s/pat/rep/g` on strings. -/
def sedG (pat rep s : String) : String := String.ofList (replaceAll pat.toList rep.toList 0 s.toList)

/-- Command substitution drops the newlines at the end. -/
def dropNewlines (s : String) : String :=
  String.ofList ((s.toList.reverse.dropWhile (· == '\n')).reverse)

/-- What `qlc --version` prints (cli.rs:291; clap prints the name and the version). -/
def versionOutput (version : String) : String := "QL Compiler " ++ version ++ "\n"

/-- get-version-from-binary.sh:4 `QLC_VERSION`. -/
def qlcVersion (output : String) : String := dropNewlines (sedG "QL Compiler " "" output)

/-- make-github-release.sh:13: the name of an archive. -/
def archiveName (version platform : String) : String := "qlc-" ++ version ++ "-" ++ platform ++ ".tar.gz"

/-- make-github-release.sh:10-14: the archives; `archive` is what `tar` makes of the binary that was built
for a platform. -/
def releaseArchives (version : String) (archive : String → Bytes) : List (String × Bytes) :=
  releasePlatforms.map (fun p => (archiveName version p, archive p))

/-- make-github-release.sh:16: the lines of checksums.txt.  `files` is what `"$ARCHIVES_DIR"/*` lists. -/
def checksumLines (sha256 : Bytes → String) (files : List (String × Bytes)) : List String :=
  files.map (fun f => sha256 f.2 ++ "  /opt/qlc/archives/" ++ f.1)

/-- make-github-release.sh:29: `ghr` publishes the files under the tag `QLC_VERSION`. -/
def releaseUrl (tag file : String) : String :=
  "https://github.com/notarize/qlc/releases/download/" ++ tag ++ "/" ++ file

/-- make-github-release.sh:29: what is published, by its address. -/
def publishedFiles (version : String) (files : List (String × Bytes)) : AMap String Bytes :=
  files.map (fun f => (releaseUrl version f.1, f.2))

/-- `grep`: the pattern, in which `.` stands for any character, matches here. -/
def matchHere : List Char → List Char → Bool
  | [], _ => true
  | _ :: _, [] => false
  | p :: ps, c :: cs => (p == '.' || p == c) && matchHere ps cs

/-- `grep`: the pattern matches somewhere in the line. -/
def matchLine (pat : List Char) : List Char → Bool
  | [] => matchHere pat []
  | c :: cs => matchHere pat (c :: cs) || matchLine pat cs

/-- The characters at which bash splits words. -/
def isIfs (c : Char) : Bool := c == ' ' || c == '\t' || c == '\n'

/-- make-npm-release.sh:13 and `${CHECKSUM_LINE_SPLIT[0]}`: the first word. -/
def firstWord (s : String) : String :=
  String.ofList ((s.toList.dropWhile isIfs).takeWhile (fun c => !isIfs c))

/-- make-npm-release.sh:12-13: `grep` in checksums.txt and the first word of what it finds.  Without a match
`grep` fails, and the script with it (`set -e`). -/
def findChecksum (version platform : String) (lines : List String) : Option String :=
  match lines.filter (fun l => matchLine (archiveName version platform).toList l.toList) with
  | [] => none
  | found => some (firstWord (joinWith "\n" found))

/-- The parts of package.json that the scripts use; its other strings contain nothing that is replaced. -/
structure Pkg where
  version : String
  checksumConfig : AMap String String
  deriving DecidableEq, Repr

/-- pkg/npm/package.json:3 and 17-22. -/
def pkgTemplate : Pkg where
  version := "@QLC_VERSION@"
  checksumConfig :=
    [("aarch64-apple-darwin", "@aarch64-apple-darwin_CHECKSUM@"),
      ("x86_64-apple-darwin", "@x86_64-apple-darwin_CHECKSUM@"),
      ("aarch64-unknown-linux-musl", "@aarch64-unknown-linux-musl_CHECKSUM@"),
      ("x86_64-unknown-linux-musl", "@x86_64-unknown-linux-musl_CHECKSUM@")]

/-- `sed -i` on package.json. -/
def Pkg.sed (pat rep : String) (p : Pkg) : Pkg :=
  ⟨sedG pat rep p.version, p.checksumConfig.map (fun kv => (sedG pat rep kv.1, sedG pat rep kv.2))⟩

/-- make-npm-release.sh:10-15: the loop over the platforms. -/
def fillChecksums (version : String) (lines : List String) : List String → Pkg → Option Pkg
  | [], p => some p
  | t :: ts, p =>
    match findChecksum version t lines with
    | none => none
    | some sum => fillChecksums version lines ts (p.sed ("@" ++ t ++ "_CHECKSUM@") sum)

/-- make-npm-release.sh:9-24: the package that is published.  (`yarn publish --new-version` sets the version to
what it is already.) -/
def npmRelease (version : String) (lines : List String) : Option Pkg :=
  fillChecksums version lines releasePlatforms (pkgTemplate.sed "@QLC_VERSION@" version)

/-- postinstall.js:95-97: where the installer looks. -/
def installUrl (pkg : Pkg) (target : String) : String :=
  let tarballFileName := "qlc-" ++ pkg.version ++ "-" ++ target ++ ".tar.gz"
  "https://github.com/notarize/qlc/releases/download/" ++ pkg.version ++ "/" ++ tarballFileName

/-- postinstall.js:13: `CHECKSUMS[target]`. -/
def Pkg.checksums (pkg : Pkg) (target : String) : Option String := AMap.get? pkg.checksumConfig target

end Qlc
