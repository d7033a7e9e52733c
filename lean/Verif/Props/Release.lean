import Verif.Lemmas.Release
import Verif.Props.Npm
/-
C101: what is built for a platform is what the npm package installs on it.
-/
set_option autoImplicit false

namespace Qlc
open Spec

variable {sha256 : Bytes → String} {v platform arch t : String} {archive : String → Bytes}
  {files : List (String × Bytes)}

theorem version_chars (hv : IsVersion v) {c : Char} (hc : c ∈ v.toList) : c ≠ '@' ∧ c ≠ ' ' ∧ c ≠ '\n' ∧ c ≠ 'Q' ∨
    c = 'Q' := by
  by_cases hq : c = 'Q'
  · exact .inr hq
  · left
    refine ⟨?_, ?_, ?_, hq⟩ <;> rintro rfl <;> rcases hv _ hc with h | h | h | h <;> revert h <;> decide

theorem version_no_at (hv : IsVersion v) : '@' ∉ v.toList := by
  intro h
  rcases version_chars hv h with h | h
  · exact h.1 rfl
  · revert h; decide

theorem isPrefixOf_mem : ∀ {pat s : List Char}, pat.isPrefixOf s = true → ∀ c ∈ pat, c ∈ s := by
  intro pat s h c hc
  rw [List.isPrefixOf_iff_prefix] at h
  exact h.subset hc

theorem absent_of_missing {c : Char} {pat : List Char} (hc : c ∈ pat) : ∀ {s : List Char}, c ∉ s →
    absent pat s = true
  | [], _ => rfl
  | d :: ds, h => by
    have h2 : c ∉ ds := fun hm => h (List.mem_cons_of_mem _ hm)
    have h1 : pat.isPrefixOf (d :: ds) = false := by
      by_contra hp
      rw [Bool.not_eq_false] at hp
      exact h (isPrefixOf_mem hp c hc)
    simp [absent, h1, absent_of_missing hc h2]

/-- The scripts find the version that the binary was built with. -/
theorem qlcVersion_output (hv : IsVersion v) : qlcVersion (versionOutput v) = v := by
  have hspace : ' ' ∉ (v ++ "\n").toList := by
    rw [String.toList_append]
    intro h
    rcases List.mem_append.1 h with h | h
    · rcases version_chars hv h with h | h
      · exact h.2.1 rfl
      · revert h; decide
    · revert h; decide
  have h1 : sedG "QL Compiler " "" (versionOutput v) = v ++ "\n" := by
    unfold sedG versionOutput
    have e : ("QL Compiler " ++ v ++ "\n").toList = "QL Compiler ".toList ++ (v ++ "\n").toList := by
      simp only [String.toList_append, List.append_assoc]
    rw [e]
    have hf := replaceAll_found (c := 'Q') (pat := "L Compiler ".toList) (rep := "".toList) (v ++ "\n").toList
    have hq : "QL Compiler ".toList = 'Q' :: "L Compiler ".toList := by decide
    rw [hq, hf, replaceAll_absent (absent_of_missing (c := ' ') (by decide) hspace)]
    have he : "".toList = ([] : List Char) := by decide
    rw [he, List.nil_append, String.ofList_toList]
  unfold qlcVersion
  rw [h1]
  unfold dropNewlines
  rw [String.toList_append]
  have hnl : "\n".toList = ['\n'] := by decide
  rw [hnl, List.reverse_append]
  have hd : (['\n'].reverse ++ v.toList.reverse).dropWhile (· == '\n') = v.toList.reverse := by
    show List.dropWhile (· == '\n') ('\n' :: v.toList.reverse) = _
    rw [List.dropWhile_cons]
    simp only [beq_self_eq_true, if_true]
    cases hr : v.toList.reverse with
    | nil => rfl
    | cons c cs =>
      have hc : c ∈ v.toList := by
        rw [← List.mem_reverse, hr]; simp
      have hne : (c == '\n') = false := by
        rw [beq_eq_false_iff_ne]
        rintro rfl
        rcases version_chars hv hc with h | h
        · exact h.2.2.1 rfl
        · revert h; decide
      rw [List.dropWhile_cons, hne]
      simp
  rw [hd, List.reverse_reverse, String.ofList_toList]

theorem sedG_clean {t r s : String} (h : '@' ∉ s.toList) : sedG ("@" ++ t ++ "_CHECKSUM@") r s = s := by
  refine sedG_absent ?_
  have e : ("@" ++ t ++ "_CHECKSUM@").toList = '@' :: (t ++ "_CHECKSUM@").toList := by
    simp only [String.toList_append, List.append_assoc]
    rfl
  rw [e]
  exact absent_of_not_mem h

theorem digest_clean (hsha : ∀ b, IsDigest (sha256 b)) (b : Bytes) : '@' ∉ (sha256 b).toList :=
  fun h => digest_not_at ((hsha b).2 _ h) rfl

/-- The published package. -/
theorem npmRelease_eq (hsha : ∀ b, IsDigest (sha256 b)) (hv : IsVersion v)
    (hl : Listing (releaseArchives v archive) files) :
    npmRelease v (checksumLines sha256 files) = some ⟨v,
      [("aarch64-apple-darwin", sha256 (archive "aarch64-apple-darwin")),
        ("x86_64-apple-darwin", sha256 (archive "x86_64-apple-darwin")),
        ("aarch64-unknown-linux-musl", sha256 (archive "aarch64-unknown-linux-musl")),
        ("x86_64-unknown-linux-musl", sha256 (archive "x86_64-unknown-linux-musl"))]⟩ := by
  have hf : ∀ p ∈ releasePlatforms, findChecksum v p (checksumLines sha256 files) = some (sha256 (archive p)) :=
    fun p hp => findChecksum_listing hsha hl hp
  have hat := version_no_at hv
  have hd := digest_clean hsha
  have k1 : '@' ∉ "aarch64-apple-darwin".toList := by decide
  have k2 : '@' ∉ "x86_64-apple-darwin".toList := by decide
  have k3 : '@' ∉ "aarch64-unknown-linux-musl".toList := by decide
  have k4 : '@' ∉ "x86_64-unknown-linux-musl".toList := by decide
  have start : pkgTemplate.sed "@QLC_VERSION@" v = ⟨v, pkgTemplate.checksumConfig⟩ := by
    unfold Pkg.sed pkgTemplate
    simp only [List.map_cons, List.map_nil, Pkg.mk.injEq, List.cons.injEq, Prod.mk.injEq, and_true]
    refine ⟨sedG_self (by decide), ?_, ?_, ?_, ?_⟩ <;> exact ⟨sedG_absent (by decide), sedG_absent (by decide)⟩
  unfold npmRelease
  rw [start]
  unfold releasePlatforms pkgTemplate
  have f1 := hf "x86_64-unknown-linux-musl" (by decide)
  have f2 := hf "aarch64-unknown-linux-musl" (by decide)
  have f3 := hf "x86_64-apple-darwin" (by decide)
  have f4 := hf "aarch64-apple-darwin" (by decide)
  simp only [fillChecksums, f1, f2, f3, f4, Pkg.sed, List.map_cons, List.map_nil]
  simp only [sedG_clean hat, sedG_clean k1, sedG_clean k2, sedG_clean k3, sedG_clean k4]
  have self : ∀ (p r : String), sedG ("@" ++ p ++ "_CHECKSUM@") r ("@" ++ p ++ "_CHECKSUM@") = r := by
    intro p r
    refine sedG_self ?_
    simp only [String.toList_append, List.append_assoc]
    intro h
    simp at h
  have other : ∀ p ∈ releasePlatforms, ∀ q ∈ releasePlatforms, p ≠ q →
      absent ("@" ++ p ++ "_CHECKSUM@").toList ("@" ++ q ++ "_CHECKSUM@").toList = true := by decide +kernel
  have e1 : "@x86_64-unknown-linux-musl_CHECKSUM@" = "@" ++ "x86_64-unknown-linux-musl" ++ "_CHECKSUM@" := by decide
  have e2 : "@aarch64-unknown-linux-musl_CHECKSUM@" = "@" ++ "aarch64-unknown-linux-musl" ++ "_CHECKSUM@" := by decide
  have e3 : "@x86_64-apple-darwin_CHECKSUM@" = "@" ++ "x86_64-apple-darwin" ++ "_CHECKSUM@" := by decide
  have e4 : "@aarch64-apple-darwin_CHECKSUM@" = "@" ++ "aarch64-apple-darwin" ++ "_CHECKSUM@" := by decide
  have o : ∀ p ∈ releasePlatforms, ∀ q ∈ releasePlatforms, p ≠ q → ∀ r,
      sedG ("@" ++ p ++ "_CHECKSUM@") r ("@" ++ q ++ "_CHECKSUM@") = "@" ++ q ++ "_CHECKSUM@" :=
    fun p hp q hq hne r => sedG_absent (other p hp q hq hne)
  simp only [e1, e2, e3, e4]
  rw [o "x86_64-unknown-linux-musl" (by decide) "aarch64-apple-darwin" (by decide) (by decide),
    o "x86_64-unknown-linux-musl" (by decide) "x86_64-apple-darwin" (by decide) (by decide),
    o "x86_64-unknown-linux-musl" (by decide) "aarch64-unknown-linux-musl" (by decide) (by decide), self,
    o "aarch64-unknown-linux-musl" (by decide) "aarch64-apple-darwin" (by decide) (by decide),
    o "aarch64-unknown-linux-musl" (by decide) "x86_64-apple-darwin" (by decide) (by decide), self,
    o "x86_64-apple-darwin" (by decide) "aarch64-apple-darwin" (by decide) (by decide), self, self]
  simp only [sedG_clean (hd _)]

theorem target_released (ht : getTarget platform arch = some t) : t ∈ releasePlatforms := by
  unfold getTarget at ht
  simp only at ht
  split at ht
  · cases ht; decide
  · split at ht
    · cases ht; decide
    · split at ht
      · cases ht; decide
      · split at ht
        · cases ht; decide
        · simp at ht

theorem get_skip {k t x : String} {m : AMap String String} (h : k ≠ t) :
    AMap.get? ((k, x) :: m) t = AMap.get? m t := by
  simp only [AMap.get?]
  rw [if_neg h]

theorem get_here {t x : String} {m : AMap String String} : AMap.get? ((t, x) :: m) t = some x := by
  simp [AMap.get?]

theorem checksums_of (f : String → String) {t : String} (ht : t ∈ releasePlatforms) :
    AMap.get? [("aarch64-apple-darwin", f "aarch64-apple-darwin"),
      ("x86_64-apple-darwin", f "x86_64-apple-darwin"),
      ("aarch64-unknown-linux-musl", f "aarch64-unknown-linux-musl"),
      ("x86_64-unknown-linux-musl", f "x86_64-unknown-linux-musl")] t = some (f t) := by
  unfold releasePlatforms at ht
  rcases List.mem_cons.1 ht with rfl | ht
  · exact (get_skip (by decide)).trans ((get_skip (by decide)).trans ((get_skip (by decide)).trans get_here))
  rcases List.mem_cons.1 ht with rfl | ht
  · exact (get_skip (by decide)).trans ((get_skip (by decide)).trans get_here)
  rcases List.mem_cons.1 ht with rfl | ht
  · exact (get_skip (by decide)).trans get_here
  rcases List.mem_cons.1 ht with rfl | ht
  · exact get_here
  · simp at ht

/-- **C101.** For every platform that the installer supports, the published npm package carries the version
that was built, lists the digest of the archive that was made of the platform's binary, and looks for it where
that archive is published. -/
theorem C101_release_is_consistent (hsha : ∀ b, IsDigest (sha256 b)) (hv : IsVersion v)
    (hl : Listing (releaseArchives (qlcVersion (versionOutput v)) archive) files)
    (ht : getTarget platform arch = some t) :
    ∃ pkg, npmRelease (qlcVersion (versionOutput v)) (checksumLines sha256 files) = some pkg ∧
      pkg.version = v ∧ pkg.checksums t = some (sha256 (archive t)) ∧
      AMap.get? (publishedFiles (qlcVersion (versionOutput v)) files) (installUrl pkg t) = some (archive t) := by
  rw [qlcVersion_output hv] at hl ⊢
  refine ⟨_, npmRelease_eq hsha hv hl, rfl, ?_, ?_⟩
  · exact checksums_of (fun p => sha256 (archive p)) (target_released ht)
  · exact publishedFiles_get (listing_nodup hl) (mem_listing hl (target_released ht))

/-- **C101.** Whatever the servers send, whatever fails and wherever the installation is stopped: nothing is
unpacked but an archive with the digest of the one that was built for the machine's platform, and that is the
one that was built if no two archives have its digest. -/
theorem C101_only_what_was_built (hsha : ∀ b, IsDigest (sha256 b)) (hv : IsVersion v)
    (hl : Listing (releaseArchives (qlcVersion (versionOutput v)) archive) files)
    (pkg : Pkg) (hpkg : npmRelease (qlcVersion (versionOutput v)) (checksumLines sha256 files) = some pkg)
    (left : Option Bytes) (es : List InstallEvent) (hu : Undisturbed es) (b : Bytes)
    (hb : b ∈ (Install.run sha256 pkg.checksums platform arch left es).unpacked) :
    ∃ t, getTarget platform arch = some t ∧ sha256 b = sha256 (archive t) ∧
      ((∀ x, sha256 x = sha256 (archive t) → x = archive t) → b = archive t) := by
  obtain ⟨t, ht, hc⟩ := (C85_only_verified_tarballs_are_unpacked (sha256 := sha256) (left := left) hu).2 b hb
  obtain ⟨pkg', hp, _, hsum, _⟩ := C101_release_is_consistent hsha hv hl ht
  rw [hpkg] at hp
  cases hp
  rw [hsum] at hc
  have he : sha256 b = sha256 (archive t) := (Option.some.inj hc).symm
  exact ⟨t, ht, he, fun hinj => hinj b he⟩

theorem redirects_stay {expected : Option String} : ∀ (n : Nat) (s : Install), s.pc = .downloading →
    s.request = .waiting →
    (List.replicate n (InstallEvent.respond 302 true)).foldl (Install.step sha256 expected) s = s
  | 0, _, _, _ => rfl
  | n + 1, s, h1, h2 => by
    have hs : s.step sha256 expected (.respond 302 true) = s := by
      unfold Install.step
      rw [h1]
      simp [h2]
    rw [List.replicate_succ, List.foldl_cons, hs]
    exact redirects_stay n s h1 h2

theorem chunks_collect {expected : Option String} : ∀ (chunks : List Bytes) (s : Install) (got : Bytes),
    s.pc = .downloading → s.request = .body → s.tarball = some got →
    (chunks.map InstallEvent.chunk).foldl (Install.step sha256 expected) s =
      { s with tarball := some (got ++ chunks.flatten) }
  | [], s, got, _, _, h3 => by
    simp only [List.map_nil, List.foldl_nil, List.flatten_nil, List.append_nil]
    rw [← h3]
  | c :: cs, s, got, h1, h2, h3 => by
    have hs : s.step sha256 expected (.chunk c) = { s with tarball := some (got ++ c) } := by
      unfold Install.step
      rw [h1]
      simp [h2, h3]
    have ih := chunks_collect (expected := expected) cs { s with tarball := some (got ++ c) } (got ++ c) h1 h2 rfl
    rw [List.map_cons, List.foldl_cons, hs]
    refine ih.trans ?_
    simp [List.append_assoc]

/-- **C101.** If the servers send, after any number of redirects and in pieces of any size, what is published
at the address the package looks at, and nothing fails, then the archive that was built is unpacked, qlc is made
executable and the installation exits with status 0. -/
theorem C101_smooth_install_succeeds (hsha : ∀ b, IsDigest (sha256 b)) (hv : IsVersion v)
    (hl : Listing (releaseArchives (qlcVersion (versionOutput v)) archive) files)
    (pkg : Pkg) (hpkg : npmRelease (qlcVersion (versionOutput v)) (checksumLines sha256 files) = some pkg)
    (ht : getTarget platform arch = some t) (left : Option Bytes) (n : Nat) (chunks : List Bytes)
    (hsrv : AMap.get? (publishedFiles (qlcVersion (versionOutput v)) files) (installUrl pkg t)
      = some chunks.flatten) :
    exitStatus (Install.run sha256 pkg.checksums platform arch left (smoothInstall n chunks)) = some 0 ∧
    (Install.run sha256 pkg.checksums platform arch left (smoothInstall n chunks)).executable = true ∧
    (Install.run sha256 pkg.checksums platform arch left (smoothInstall n chunks)).unpacked = [archive t] := by
  obtain ⟨pkg', hp, _, hsum, hpub⟩ := C101_release_is_consistent hsha hv hl ht
  rw [hpkg] at hp
  cases hp
  have hfl : chunks.flatten = archive t := Option.some.inj (hsrv.symm.trans hpub)
  have hexp : (getTarget platform arch).bind pkg.checksums = some (sha256 (archive t)) := by
    rw [ht]; exact hsum
  have hne : sha256 (archive t) ≠ "" := by
    intro e
    exact (hsha (archive t)).1 (by rw [e]; decide)
  unfold Install.run smoothInstall
  rw [hexp, List.foldl_append, List.foldl_append, List.foldl_append]
  have h0 : Install.start platform arch left =
      ⟨left, .pending, .pending, .waiting, 0, [], false, .downloading⟩ := by
    unfold Install.start; simp [ht]
  rw [h0, redirects_stay n _ rfl rfl]
  have h1 : [InstallEvent.binDir true, .respond 200 true].foldl
      (Install.step sha256 (some (sha256 (archive t))))
      ⟨left, .pending, .pending, .waiting, 0, [], false, .downloading⟩ =
      ⟨some [], .resolved, .pending, .body, 0, [], false, .downloading⟩ := rfl
  rw [h1, chunks_collect chunks _ [] rfl rfl rfl, List.nil_append, hfl]
  simp [Install.step, Install.settle, Install.await, Install.finishing, Settled.resolve, exitStatus, hne]

/-! Non-vacuity: a release with a pre-release version and stand-ins for `tar` and SHA-256. -/

namespace Demo
/-- A stand-in for SHA-256 that tells apart the four archives. -/
def hexDigest (b : Bytes) : String :=
  if b = [1] then "1a" else if b = [2] then "2b" else if b = [3] then "3c" else if b = [4] then "4d" else "ff"
/-- A stand-in for the archives. -/
def archiveOf (p : String) : Bytes :=
  if p = "x86_64-unknown-linux-musl" then [1]
  else if p = "aarch64-unknown-linux-musl" then [2]
  else if p = "x86_64-apple-darwin" then [3] else [4]
/-- The directory listing, with `checksums.txt` in it. -/
def archiveFiles : List (String × Bytes) :=
  [("checksums.txt", []), (archiveName "4.2.0-qlc-1.x86" "x86_64-unknown-linux-musl", [1]),
    (archiveName "4.2.0-qlc-1.x86" "aarch64-unknown-linux-musl", [2]),
    (archiveName "4.2.0-qlc-1.x86" "x86_64-apple-darwin", [3]),
    (archiveName "4.2.0-qlc-1.x86" "aarch64-apple-darwin", [4])]
end Demo

theorem hexDigest_ok (b : Bytes) : IsDigest (Demo.hexDigest b) := by
  unfold Demo.hexDigest IsDigest
  split
  · decide
  · split
    · decide
    · split
      · decide
      · split <;> decide

theorem demoVersion_ok : IsVersion "4.2.0-qlc-1.x86" := by
  unfold IsVersion
  decide

/-- The hypotheses hold of the example; the Intel Mac gets its own archive. -/
theorem C101_demo : ∃ pkg, npmRelease (qlcVersion (versionOutput "4.2.0-qlc-1.x86"))
      (checksumLines Demo.hexDigest Demo.archiveFiles) = some pkg ∧
    pkg.checksums "x86_64-apple-darwin" = some "3c" ∧
    (Install.run Demo.hexDigest pkg.checksums "darwin" "x64" none (smoothInstall 2 [[3], []])).unpacked = [[3]] := by
  have hl : Listing (releaseArchives (qlcVersion (versionOutput "4.2.0-qlc-1.x86")) Demo.archiveOf)
      Demo.archiveFiles := by
    rw [qlcVersion_output demoVersion_ok]
    exact .inr ⟨[], List.Perm.refl _⟩
  have ht : getTarget "darwin" "x64" = some "x86_64-apple-darwin" := by decide
  obtain ⟨pkg, h1, _, h3, h4⟩ := C101_release_is_consistent hexDigest_ok demoVersion_ok hl ht
  refine ⟨pkg, h1, h3, ?_⟩
  exact (C101_smooth_install_succeeds hexDigest_ok demoVersion_ok hl pkg h1 ht none 2 [[3], []] h4).2.2

end Qlc
