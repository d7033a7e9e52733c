import Verif.Spec.NpmPath
import Verif.Props.Release
/-
C108: the path that the npm package exports is that of the program it has installed.
-/
set_option autoImplicit false

namespace Qlc
open Spec

/-- A part of a path that `normalize` keeps. -/
def KeptPart (p : List Char) : Prop := p ≠ [] ∧ '/' ∉ p ∧ p ≠ ['.'] ∧ p ≠ ['.', '.']

/-- A separator before each part. -/
def rooted (ps : List (List Char)) : List Char := (ps.map (fun p => '/' :: p)).flatten

theorem splitSlash_part : ∀ {p : List Char}, '/' ∉ p → ∀ (rest : List Char),
    splitSlash (p ++ '/' :: rest) = p :: splitSlash rest
  | [], _, rest => by simp [splitSlash]
  | c :: cs, h, rest => by
    have hc : c ≠ '/' := fun e => h (e ▸ List.mem_cons_self ..)
    have hcs : '/' ∉ cs := fun e => h (List.mem_cons_of_mem _ e)
    rw [List.cons_append, splitSlash, if_neg hc, splitSlash_part hcs rest]

theorem splitSlash_last : ∀ {p : List Char}, '/' ∉ p → splitSlash p = [p]
  | [], _ => rfl
  | c :: cs, h => by
    have hc : c ≠ '/' := fun e => h (e ▸ List.mem_cons_self ..)
    have hcs : '/' ∉ cs := fun e => h (List.mem_cons_of_mem _ e)
    rw [splitSlash, if_neg hc, splitSlash_last hcs]

theorem splitSlash_before : ∀ {ps : List (List Char)}, (∀ p ∈ ps, '/' ∉ p) → ∀ {q : List Char}, '/' ∉ q →
    splitSlash (q ++ rooted ps) = q :: ps
  | [], _, q, hq => by simpa [rooted] using splitSlash_last hq
  | p :: ps, h, q, hq => by
    have e : rooted (p :: ps) = '/' :: (p ++ rooted ps) := by simp [rooted]
    rw [e, splitSlash_part hq, splitSlash_before (fun x hx => h x (List.mem_cons_of_mem _ hx)) (h p (List.mem_cons_self ..))]

theorem splitSlash_rooted {ps : List (List Char)} (h : ∀ p ∈ ps, '/' ∉ p) : splitSlash (rooted ps) = [] :: ps :=
  splitSlash_before (q := []) h (by simp)

theorem nodePart_kept {above : Bool} {stack : List (List Char)} {p : List Char} (h : KeptPart p) :
    nodePart above stack p = p :: stack := by
  unfold nodePart
  rw [if_neg (by rintro (e | e); exacts [h.1 e, h.2.2.1 e]), if_neg h.2.2.2]

theorem parts_kept {above : Bool} : ∀ {ps : List (List Char)}, (∀ p ∈ ps, KeptPart p) → ∀ stack,
    ps.foldl (nodePart above) stack = ps.reverse ++ stack
  | [], _, stack => rfl
  | p :: ps, h, stack => by
    rw [List.foldl_cons, nodePart_kept (h p (List.mem_cons_self ..)),
      parts_kept (fun x hx => h x (List.mem_cons_of_mem _ hx))]
    simp

theorem slashed_rooted : ∀ {ps : List (List Char)}, ps ≠ [] → '/' :: slashed ps = rooted ps
  | [], h => absurd rfl h
  | [p], _ => by simp [slashed, rooted]
  | p :: q :: rest, _ => by
    have := slashed_rooted (ps := q :: rest) (by simp)
    simp only [rooted, List.map_cons, List.flatten_cons] at this ⊢
    rw [slashed, this]
    simp

theorem rooted_append (a b : List (List Char)) : rooted (a ++ b) = rooted a ++ rooted b := by
  simp [rooted]

theorem rooted_last : ∀ {ps : List (List Char)}, ps ≠ [] → (∀ p ∈ ps, p ≠ [] ∧ '/' ∉ p) →
    (rooted ps).getLast? ≠ some '/'
  | [], h, _ => absurd rfl h
  | [p], _, h => by
    obtain ⟨h1, h2⟩ := h p (List.mem_cons_self ..)
    intro e
    have e' : rooted [p] = '/' :: p := by simp [rooted]
    rw [e'] at e
    cases p with
    | nil => exact absurd rfl h1
    | cons c cs =>
      rw [List.getLast?_cons_cons] at e
      exact h2 (List.mem_of_getLast? e)
  | p :: q :: rest, _, h => by
    have := rooted_last (ps := q :: rest) (by simp) (fun x hx => h x (List.mem_cons_of_mem _ hx))
    have e : rooted (p :: q :: rest) = ('/' :: p) ++ rooted (q :: rest) := by simp [rooted]
    have hne : rooted (q :: rest) ≠ [] := by simp [rooted]
    rw [e, List.getLast?_append_of_ne_nil _ hne]
    exact this

/-- Normalising an absolute path. -/
theorem normalize_rooted {ps kept : List (List Char)} (hps : ps ≠ []) (hs : ∀ p ∈ ps, p ≠ [] ∧ '/' ∉ p)
    (hk : kept ≠ []) (h : ps.foldl (nodePart false) [] = kept.reverse) (hkne : ∀ p ∈ kept, p ≠ []) :
    nodeNormalize (String.ofList (rooted ps)) = String.ofList (rooted kept) := by
  have h1 : (rooted ps).head? = some '/' := by
    cases ps with
    | nil => exact absurd rfl hps
    | cons p ps => simp [rooted]
  have h2 := rooted_last hps hs
  have h3 : splitSlash (rooted ps) = [] :: ps := splitSlash_rooted (fun p hp => (hs p hp).2)
  have h4 : (([] : List Char) :: ps).foldl (nodePart false) [] = kept.reverse := by
    rw [List.foldl_cons]
    simpa [nodePart] using h
  have h5 : slashed kept ≠ [] := by
    cases kept with
    | nil => exact absurd rfl hk
    | cons p rest =>
      have := hkne p (List.mem_cons_self ..)
      cases rest <;> simp [slashed, this]
  unfold nodeNormalize
  simp only [String.toList_ofList, h1, h2, h3, decide_true, Bool.not_true, h4, List.reverse_reverse, if_neg h5, if_true]
  rw [← slashed_rooted hk]
  simp

/-- The parts of a directory. -/
theorem nodeDir_parts {dir : String} (h : NodeDir dir) : ∃ ps, dir = String.ofList (rooted ps) ∧ ∀ p ∈ ps, KeptPart p := by
  induction h with
  | root => exact ⟨[], rfl, by simp⟩
  | @sub dir name _ hne hs hd hdd ih =>
    obtain ⟨ps, rfl, hps⟩ := ih
    refine ⟨ps ++ [name.toList], ?_, ?_⟩
    · rw [← String.toList_inj]
      simp [rooted]
    · intro p hp
      rcases List.mem_append.1 hp with hp | hp
      · exact hps p hp
      · simp only [List.mem_singleton] at hp
        subst hp
        refine ⟨fun e => hne ?_, hs, fun e => hd ?_, fun e => hdd ?_⟩ <;> rw [← String.toList_inj, e] <;> rfl

theorem kept_lit {s : String} (h : s.toList ≠ [] ∧ '/' ∉ s.toList ∧ s.toList ≠ ['.'] ∧ s.toList ≠ ['.', '.']) :
    KeptPart s.toList := h

theorem join_two {a b : String} (ha : a ≠ "") (hb : b ≠ "") : nodeJoin [a, b] = nodeNormalize (a ++ "/" ++ b) := by
  unfold nodeJoin
  simp [ha, hb, joinWith]

theorem dir_ne {ps : List (List Char)} {s : String} (hs : s ≠ "") : String.ofList (rooted ps) ++ s ≠ "" := by
  intro e
  have := congrArg String.toList e
  simp at this
  exact hs this.2

/-- **C108.** Wherever the package is: the path it exports, the path that npm links `qlc` to, the file that the installer
makes executable and the place at which `tar` puts the member `qlc` of the archive are one. -/
theorem C108_one_path {pkg : String} (h : NodeDir pkg) :
    exportedPath pkg = pkg ++ "/bin/qlc" ∧ linkedPath pkg = pkg ++ "/bin/qlc" ∧ chmodPath pkg = pkg ++ "/bin/qlc" ∧
      binPath pkg ++ "/" ++ "qlc" = pkg ++ "/bin/qlc" := by
  obtain ⟨ps, rfl, hps⟩ := nodeDir_parts h
  have hno : ∀ p ∈ ps, p ≠ [] ∧ '/' ∉ p := fun p hp => ⟨(hps p hp).1, (hps p hp).2.1⟩
  have hne : ∀ p ∈ ps, p ≠ [] := fun p hp => (hps p hp).1
  have fold : ∀ rest stack, (ps ++ rest).foldl (nodePart false) [] = stack ↔
      rest.foldl (nodePart false) ps.reverse = stack := by
    intro rest stack
    rw [List.foldl_append, parts_kept hps, List.append_nil]
  have eq : ∀ (rest : List (List Char)) (s : String), rooted rest = s.toList →
      String.ofList (rooted ps) ++ s = String.ofList (rooted (ps ++ rest)) := by
    intro rest s hs
    rw [← String.toList_inj]
    simp [rooted_append, hs]
  have hbin : binPath (String.ofList (rooted ps)) = String.ofList (rooted ps) ++ "/bin" := by
    unfold binPath scriptDir
    rw [join_two (dir_ne (by decide)) (by decide), String.append_assoc, String.append_assoc,
      eq ["lib".toList, "..".toList, "bin".toList] _ (by decide), eq ["bin".toList] _ (by decide)]
    refine normalize_rooted (by simp) ?_ (by simp) ?_ ?_
    · intro p hp
      rcases List.mem_append.1 hp with hp' | hp'
      · exact hno p hp'
      · clear hp; revert p; decide
    · rw [fold]
      simp [nodePart]
    · intro p hp
      rcases List.mem_append.1 hp with hp' | hp'
      · exact hne p hp'
      · clear hp; revert p; decide
  refine ⟨?_, ?_, ?_, ?_⟩
  · unfold exportedPath scriptDir
    rw [join_two (dir_ne (by decide)) (by decide), String.append_assoc, String.append_assoc,
      eq ["lib".toList, "..".toList, "bin".toList, "qlc".toList] _ (by decide),
      eq ["bin".toList, "qlc".toList] _ (by decide)]
    refine normalize_rooted (by simp) ?_ (by simp) ?_ ?_
    · intro p hp
      rcases List.mem_append.1 hp with hp' | hp'
      · exact hno p hp'
      · clear hp; revert p; decide
    · rw [fold]
      simp [nodePart]
    · intro p hp
      rcases List.mem_append.1 hp with hp' | hp'
      · exact hne p hp'
      · clear hp; revert p; decide
  · unfold linkedPath
    rw [String.append_assoc]
    rfl
  · unfold chmodPath
    rw [hbin, join_two (dir_ne (by decide)) (by decide), String.append_assoc, String.append_assoc,
      eq ["bin".toList, "qlc".toList] _ (by decide), eq ["bin".toList, "qlc".toList] _ (by decide)]
    refine normalize_rooted (by simp) ?_ (by simp) ?_ ?_
    · intro p hp
      rcases List.mem_append.1 hp with hp' | hp'
      · exact hno p hp'
      · clear hp; revert p; decide
    · rw [fold]
      simp [nodePart]
    · intro p hp
      rcases List.mem_append.1 hp with hp' | hp'
      · exact hne p hp'
      · clear hp; revert p; decide
  · rw [hbin, String.append_assoc, String.append_assoc]
    rfl

variable {sha256 : Bytes → String} {v platform arch : String} {archive program : String → Bytes}
  {files : List (String × Bytes)}

/-- **C108: what is at that path.** Let the published package be installed, whatever the servers send and whatever fails.
If the installer exits with status 0, then at the path the package exports there is the program that was built for the
machine's platform, or the download broke off and there is still the empty file that the package brings.  (Digests of
different archives are taken to be different.) -/
theorem C108_exported_program (hsha : ∀ b, IsDigest (sha256 b)) (hv : IsVersion v)
    (hl : Listing (releaseArchives (qlcVersion (versionOutput v)) archive) files)
    (pkg : Pkg) (hpkg : npmRelease (qlcVersion (versionOutput v)) (checksumLines sha256 files) = some pkg)
    {members : Bytes → List (String × Bytes)} (hm : Packs members archive program)
    (hcoll : ∀ t x, sha256 x = sha256 (archive t) → x = archive t)
    {dir : String} (hdir : NodeDir dir) {before : NpmFiles} (hb : FreshPackage dir before)
    (left : Option Bytes) (es : List InstallEvent) (hu : Undisturbed es)
    (hx : exitStatus (Install.run sha256 pkg.checksums platform arch left es) = some 0) :
    (∃ t, getTarget platform arch = some t ∧ (Install.run sha256 pkg.checksums platform arch left es).executable = true ∧
      (Install.run sha256 pkg.checksums platform arch left es).files members dir before (exportedPath dir)
        = some (program t)) ∨
    (.cutOff ∈ es ∧ (Install.run sha256 pkg.checksums platform arch left es).executable = false ∧
      (Install.run sha256 pkg.checksums platform arch left es).files members dir before (exportedPath dir)
        = some []) := by
  obtain ⟨p1, _, _, p4⟩ := C108_one_path hdir
  rcases C85_exit_status_zero hu hx with ⟨hex, b, hub⟩ | ⟨hc, hn, hex⟩
  · left
    obtain ⟨t, ht, _, hinj⟩ := C101_only_what_was_built hsha hv hl pkg hpkg left es hu b (by rw [hub]; simp)
    cases hinj (hcoll t)
    refine ⟨t, ht, hex, ?_⟩
    unfold Install.files
    rw [hub, List.foldl_cons, List.foldl_nil, hm t, p1]
    simp only [untarTo, List.foldl_cons, List.foldl_nil]
    rw [if_pos p4.symm]
  · right
    refine ⟨hc, hex, ?_⟩
    unfold Install.files
    rw [hn, p1]
    exact hb

/-- The directory of a package. -/
theorem demoDir_ok : NodeDir "/app/node_modules/@notarize/qlc-cli" := by
  have h1 : NodeDir ("" ++ "/" ++ "app") := .sub .root (by decide) (by decide) (by decide) (by decide)
  have h2 := NodeDir.sub h1 (name := "node_modules") (by decide) (by decide) (by decide) (by decide)
  have h3 := NodeDir.sub h2 (name := "@notarize") (by decide) (by decide) (by decide) (by decide)
  have h4 := NodeDir.sub h3 (name := "qlc-cli") (by decide) (by decide) (by decide) (by decide)
  exact h4

example : exportedPath "/app/node_modules/@notarize/qlc-cli" = "/app/node_modules/@notarize/qlc-cli/bin/qlc" :=
  (C108_one_path demoDir_ok).1

theorem hexDigest_coll (t : String) (x : Bytes) (h : Demo.hexDigest x = Demo.hexDigest (Demo.archiveOf t)) :
    x = Demo.archiveOf t := by
  have key : ∀ b : Bytes, b ∈ ([[1], [2], [3], [4]] : List Bytes) → Demo.hexDigest x = Demo.hexDigest b → x = b := by
    intro b hb h
    simp only [List.mem_cons, List.not_mem_nil, or_false] at hb
    by_cases h1 : x = [1]
    · subst h1; revert h; rcases hb with rfl | rfl | rfl | rfl <;> decide
    by_cases h2 : x = [2]
    · subst h2; revert h; rcases hb with rfl | rfl | rfl | rfl <;> decide
    by_cases h3 : x = [3]
    · subst h3; revert h; rcases hb with rfl | rfl | rfl | rfl <;> decide
    by_cases h4 : x = [4]
    · subst h4; revert h; rcases hb with rfl | rfl | rfl | rfl <;> decide
    have e : Demo.hexDigest x = "ff" := by simp [Demo.hexDigest, h1, h2, h3, h4]
    rw [e] at h
    revert h
    rcases hb with rfl | rfl | rfl | rfl <;> exact fun h => absurd h (by decide)
  refine key _ ?_ h
  unfold Demo.archiveOf
  repeat' split
  all_goals decide

/-- The program in an archive of the example: two bytes, the first of which is the archive's. -/
def Demo.membersOf (b : Bytes) : List (String × Bytes) := [("qlc", b ++ [0])]

/-- The hypotheses hold of the example, with both outcomes: after a smooth installation the exported path names the
program, after one that was cut off it names the empty file, and both exit with status 0. -/
theorem C108_demo : ∃ pkg, npmRelease (qlcVersion (versionOutput "4.2.0-qlc-1.x86"))
      (checksumLines Demo.hexDigest Demo.archiveFiles) = some pkg ∧
    (∃ s, s = Install.run Demo.hexDigest pkg.checksums "darwin" "x64" none (smoothInstall 2 [[3], []]) ∧
      exitStatus s = some 0 ∧ s.files Demo.membersOf "/app" (fun _ => some []) (exportedPath "/app") = some [3, 0]) ∧
    (∃ s, s = Install.run Demo.hexDigest pkg.checksums "darwin" "x64" none
        [.respond 200 true, .chunk [3], .binDir true, .cutOff, .idle] ∧
      exitStatus s = some 0 ∧ s.files Demo.membersOf "/app" (fun _ => some []) (exportedPath "/app") = some []) := by
  have hl : Listing (releaseArchives (qlcVersion (versionOutput "4.2.0-qlc-1.x86")) Demo.archiveOf)
      Demo.archiveFiles := by
    rw [qlcVersion_output demoVersion_ok]
    exact .inr ⟨[], List.Perm.refl _⟩
  have ht : getTarget "darwin" "x64" = some "x86_64-apple-darwin" := by decide
  have hdir : NodeDir "/app" := .sub .root (name := "app") (by decide) (by decide) (by decide) (by decide)
  obtain ⟨pkg, h1, _, h3, h4⟩ := C101_release_is_consistent hexDigest_ok demoVersion_ok hl ht
  have use := fun es hu hx => C108_exported_program (program := fun t => Demo.archiveOf t ++ [0]) (platform := "darwin")
    (arch := "x64") hexDigest_ok demoVersion_ok hl pkg h1 (members := Demo.membersOf) (fun t => rfl) hexDigest_coll hdir
    (before := fun _ => some []) rfl none es hu hx
  refine ⟨pkg, h1, ⟨_, rfl, ?_, ?_⟩, ⟨_, rfl, ?_, ?_⟩⟩
  · exact (C101_smooth_install_succeeds hexDigest_ok demoVersion_ok hl pkg h1 ht none 2 [[3], []] h4).1
  · rcases use (smoothInstall 2 [[3], []]) (by simp [Undisturbed, smoothInstall])
      (C101_smooth_install_succeeds hexDigest_ok demoVersion_ok hl pkg h1 ht none 2 [[3], []] h4).1 with
      ⟨t, h, _, he⟩ | ⟨h, _⟩
    · cases ht.symm.trans h
      exact he
    · exact absurd h (by decide)
  · unfold Install.run
    rw [ht]
    show exitStatus (List.foldl (Install.step Demo.hexDigest (pkg.checksums "x86_64-apple-darwin")) _ _) = _
    rw [h3]
    decide
  · unfold Install.run
    rw [ht]
    show (List.foldl (Install.step Demo.hexDigest (pkg.checksums "x86_64-apple-darwin")) _ _).files _ _ _ _ = _
    rw [h3]
    decide

end Qlc
