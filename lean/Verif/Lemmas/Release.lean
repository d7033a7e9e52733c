import Verif.Spec.Release
import Mathlib.Data.List.Nodup
import Mathlib.Tactic.ByContra
/-
Lemmas on `sed`, `grep` and the lines of checksums.txt.
-/
set_option autoImplicit false

namespace Qlc
open Spec

/-! ### sed -/

/-- The pattern occurs nowhere. -/
def absent (pat : List Char) : List Char → Bool
  | [] => true
  | c :: cs => !pat.isPrefixOf (c :: cs) && absent pat cs

theorem replaceAll_absent {pat rep : List Char} : ∀ {s : List Char}, absent pat s = true →
    replaceAll pat rep 0 s = s
  | [], _ => rfl
  | c :: cs, h => by
    simp only [absent, Bool.and_eq_true, Bool.not_eq_true'] at h
    simp only [replaceAll, h.1]
    rw [replaceAll_absent h.2]
    simp

theorem absent_of_not_mem {c : Char} {pat : List Char} : ∀ {s : List Char}, c ∉ s →
    absent (c :: pat) s = true
  | [], _ => rfl
  | d :: ds, h => by
    simp only [List.mem_cons, not_or] at h
    have hne : (c == d) = false := by simp [h.1]
    simp [absent, List.isPrefixOf, hne, absent_of_not_mem h.2]

theorem replaceAll_skip {pat rep : List Char} : ∀ (k : List Char) (s : List Char),
    replaceAll pat rep k.length (k ++ s) = replaceAll pat rep 0 s
  | [], _ => rfl
  | _ :: k, s => by
    simp only [List.length_cons, List.cons_append, replaceAll]
    exact replaceAll_skip k s

theorem replaceAll_found {c : Char} {pat rep : List Char} (s : List Char) :
    replaceAll (c :: pat) rep 0 ((c :: pat) ++ s) = rep ++ replaceAll (c :: pat) rep 0 s := by
  rw [List.cons_append, replaceAll, if_pos]
  · have := replaceAll_skip (pat := c :: pat) (rep := rep) pat s
    simp only [List.length_cons, Nat.add_sub_cancel]
    rw [this]
  · rw [List.isPrefixOf_iff_prefix]
    exact List.prefix_append (c :: pat) s

theorem sedG_absent {pat rep s : String} (h : absent pat.toList s.toList = true) : sedG pat rep s = s := by
  unfold sedG
  rw [replaceAll_absent h, String.ofList_toList]

theorem sedG_self {pat rep : String} (h : pat.toList ≠ []) : sedG pat rep pat = rep := by
  unfold sedG
  cases hp : pat.toList with
  | nil => exact absurd hp h
  | cons c p =>
    have := replaceAll_found (c := c) (pat := p) (rep := rep.toList) []
    rw [List.append_nil] at this
    rw [this, replaceAll, List.append_nil, String.ofList_toList]

/-! ### grep -/

theorem matchHere_self : ∀ (p s : List Char), matchHere p (p ++ s) = true
  | [], _ => rfl
  | c :: p, s => by simp [matchHere, matchHere_self p s]

theorem matchHere_tail : ∀ {xs ps ys : List Char}, matchHere (xs ++ ps) ys = true →
    matchHere ps (ys.drop xs.length) = true
  | [], _, _, h => h
  | _ :: xs, ps, [], h => by simp [matchHere] at h
  | _ :: xs, ps, _ :: ys, h => by
    simp only [List.cons_append, matchHere, Bool.and_eq_true] at h
    rw [List.length_cons, List.drop_succ_cons]
    exact matchHere_tail h.2

theorem matchHere_drop {pat : List Char} : ∀ {s : List Char} (k : Nat), matchHere pat (s.drop k) = true →
    matchLine pat s = true
  | [], k, h => by simpa [matchLine] using h
  | c :: cs, 0, h => by
    rw [List.drop_zero] at h
    simp [matchLine, h]
  | c :: cs, k + 1, h => by
    have := matchHere_drop (s := cs) k h
    simp [matchLine, this]

theorem matchLine_drop {pat : List Char} : ∀ {s : List Char}, matchLine pat s = true →
    ∃ k, matchHere pat (s.drop k) = true
  | [], h => ⟨0, by simpa [matchLine] using h⟩
  | c :: cs, h => by
    simp only [matchLine, Bool.or_eq_true] at h
    rcases h with h | h
    · exact ⟨0, h⟩
    · obtain ⟨k, hk⟩ := matchLine_drop h
      exact ⟨k + 1, hk⟩

/-- Both file names begin alike: the pattern is found in the other name only if its end is found in the
other's end. -/
theorem matchLine_end {pre p q : List Char} (h : matchLine (pre ++ p) (pre ++ q) = true) :
    matchLine p q = true := by
  obtain ⟨k, hk⟩ := matchLine_drop h
  have := matchHere_tail hk
  rw [List.drop_drop, Nat.add_comm, ← List.drop_drop, List.drop_left] at this
  exact matchHere_drop k this

/-- Before the file name there is nothing that looks like one. -/
theorem matchLine_prefix {rest file : List Char} : ∀ {hash : List Char},
    (∀ c ∈ hash, c ∈ "0123456789abcdef".toList) →
    matchLine ('q' :: 'l' :: 'c' :: '-' :: rest) (hash ++ "  /opt/qlc/archives/".toList ++ file)
      = matchLine ('q' :: 'l' :: 'c' :: '-' :: rest) file
  | [], _ => by
    rw [List.nil_append]
    rfl
  | c :: hash, h => by
    have hc : ('q' == c) = false := by
      have hm := h c (by simp)
      by_contra hq
      rw [Bool.not_eq_false, beq_iff_eq] at hq
      subst hq
      revert hm
      decide
    rw [List.cons_append, List.cons_append, matchLine, matchHere, hc]
    have hd : ('q' == '.') = false := by decide
    rw [hd, Bool.or_self, Bool.false_and, Bool.false_or]
    exact matchLine_prefix (fun c hc => h c (by simp [hc]))

/-! ### checksums.txt -/

theorem archiveName_toList (v p : String) : (archiveName v p).toList =
    'q' :: 'l' :: 'c' :: '-' :: (v.toList ++ ('-' :: (p.toList ++ ".tar.gz".toList))) := by
  unfold archiveName
  simp only [String.toList_append, List.append_assoc]
  rfl

theorem archiveName_parts (v p : String) : (archiveName v p).toList =
    ("qlc-" ++ v ++ "-").toList ++ (p ++ ".tar.gz").toList := by
  unfold archiveName
  simp only [String.toList_append, List.append_assoc]

theorem platform_ends : ∀ p ∈ releasePlatforms, ∀ q ∈ releasePlatforms, p ≠ q →
    matchLine (p ++ ".tar.gz").toList (q ++ ".tar.gz").toList = false := by decide +kernel

theorem line_matches {sum v p file : String} (hs : IsDigest sum) :
    matchLine (archiveName v p).toList (sum ++ "  /opt/qlc/archives/" ++ file).toList
      = matchLine (archiveName v p).toList file.toList := by
  rw [archiveName_toList]
  simp only [String.toList_append]
  exact matchLine_prefix hs.2

theorem own_line (v p : String) : matchLine (archiveName v p).toList (archiveName v p).toList = true := by
  refine matchHere_drop 0 ?_
  have := matchHere_self (archiveName v p).toList []
  rwa [List.append_nil] at this

theorem other_line {v p q : String} (hp : p ∈ releasePlatforms) (hq : q ∈ releasePlatforms) (hne : p ≠ q) :
    matchLine (archiveName v p).toList (archiveName v q).toList = false := by
  by_contra h
  rw [Bool.not_eq_false, archiveName_parts, archiveName_parts] at h
  have := matchLine_end h
  rw [platform_ends p hp q hq hne] at this
  simp at this

theorem list_line (v p : String) : matchLine (archiveName v p).toList "checksums.txt".toList = false := by
  rw [archiveName_toList]
  rfl

theorem archiveName_inj {v p q : String} (h : archiveName v p = archiveName v q) : p = q := by
  have h' : (archiveName v p).toList = (archiveName v q).toList := by rw [h]
  rw [archiveName_toList, archiveName_toList] at h'
  simp only [List.cons.injEq, true_and, List.append_cancel_left_eq, List.append_cancel_right_eq] at h'
  exact String.toList_injective h'

theorem filter_eq_single {α : Type} {f : α → Bool} {a : α} : ∀ {l : List α}, l.Nodup → a ∈ l → f a = true →
    (∀ b ∈ l, b ≠ a → f b = false) → l.filter f = [a]
  | [], _, h, _, _ => by simp at h
  | x :: xs, hn, hm, ha, hb => by
    rw [List.nodup_cons] at hn
    by_cases hx : x = a
    · subst hx
      rw [List.filter_cons_of_pos ha]
      congr 1
      rw [List.filter_eq_nil_iff]
      intro b hb'
      rw [hb b (by simp [hb']) (fun e => hn.1 (e ▸ hb'))]
      simp
    · have hm' : a ∈ xs := by
        rcases List.mem_cons.1 hm with e | e
        · exact absurd e.symm hx
        · exact e
      rw [List.filter_cons_of_neg (by rw [hb x (by simp) hx]; simp)]
      exact filter_eq_single hn.2 hm' ha (fun b hb' => hb b (by simp [hb']))

theorem takeWhile_word : ∀ {w rest : List Char}, (∀ c ∈ w, isIfs c = false) →
    (w ++ ' ' :: rest).takeWhile (fun c => !isIfs c) = w
  | [], rest, _ => by
    rw [List.nil_append, List.takeWhile_cons]
    rfl
  | c :: w, rest, h => by
    rw [List.cons_append, List.takeWhile_cons, h c (by simp)]
    simp only [Bool.not_false, if_true]
    rw [takeWhile_word (fun c hc => h c (by simp [hc]))]

theorem digest_not_ifs {c : Char} (h : c ∈ "0123456789abcdef".toList) : isIfs c = false := by
  have : ∀ c ∈ "0123456789abcdef".toList, isIfs c = false := by decide
  exact this c h

theorem digest_not_at {c : Char} (h : c ∈ "0123456789abcdef".toList) : c ≠ '@' := by
  have : ∀ c ∈ "0123456789abcdef".toList, c ≠ '@' := by decide
  exact this c h

theorem firstWord_line {sum rest : String} (hs : IsDigest sum) :
    firstWord (sum ++ "  /opt/qlc/archives/" ++ rest) = sum := by
  unfold firstWord
  have e : (sum ++ "  /opt/qlc/archives/" ++ rest).toList =
      sum.toList ++ ' ' :: (" /opt/qlc/archives/".toList ++ rest.toList) := by
    simp only [String.toList_append, List.append_assoc]
    rfl
  rw [e]
  obtain ⟨hne, hd⟩ := hs
  have hdrop : (sum.toList ++ ' ' :: (" /opt/qlc/archives/".toList ++ rest.toList)).dropWhile isIfs =
      sum.toList ++ ' ' :: (" /opt/qlc/archives/".toList ++ rest.toList) := by
    cases hl : sum.toList with
    | nil => exact absurd hl hne
    | cons c cs =>
      rw [List.cons_append, List.dropWhile_cons, digest_not_ifs (hd c (by rw [hl]; simp))]
      simp
  rw [hdrop, takeWhile_word (fun c hc => digest_not_ifs (hd c hc)), String.ofList_toList]

theorem releaseArchives_nodup (v : String) (archive : String → Bytes) :
    ((releaseArchives v archive).map Prod.fst).Nodup := by
  unfold releaseArchives
  rw [List.map_map]
  refine List.Nodup.map_on (fun p _ q _ h => archiveName_inj h) ?_
  decide

theorem listing_nodup {v : String} {archive : String → Bytes} {files : List (String × Bytes)}
    (h : Listing (releaseArchives v archive) files) : (files.map Prod.fst).Nodup := by
  rcases h with h | ⟨b, h⟩
  · exact (h.map Prod.fst).nodup_iff.2 (releaseArchives_nodup v archive)
  · rw [(h.map Prod.fst).nodup_iff, List.map_cons, List.nodup_cons]
    refine ⟨?_, releaseArchives_nodup v archive⟩
    simp only [releaseArchives, List.map_map, List.mem_map, Function.comp_apply, not_exists, not_and]
    intro p _ e
    have := list_line v p
    rw [← e, own_line] at this
    simp at this

theorem listing_mem {v : String} {archive : String → Bytes} {files : List (String × Bytes)}
    (h : Listing (releaseArchives v archive) files) {f : String × Bytes} (hf : f ∈ files) :
    f.1 = "checksums.txt" ∨ ∃ q ∈ releasePlatforms, f = (archiveName v q, archive q) := by
  have hm : f ∈ releaseArchives v archive → ∃ q ∈ releasePlatforms, f = (archiveName v q, archive q) := by
    intro h'
    simp only [releaseArchives, List.mem_map] at h'
    obtain ⟨q, hq, e⟩ := h'
    exact ⟨q, hq, e.symm⟩
  rcases h with h | ⟨b, h⟩
  · exact .inr (hm (h.mem_iff.1 hf))
  · rcases List.mem_cons.1 (h.mem_iff.1 hf) with e | e
    · exact .inl (by rw [e])
    · exact .inr (hm e)

theorem mem_listing {v : String} {archive : String → Bytes} {files : List (String × Bytes)}
    (h : Listing (releaseArchives v archive) files) {p : String} (hp : p ∈ releasePlatforms) :
    (archiveName v p, archive p) ∈ files := by
  have hm : (archiveName v p, archive p) ∈ releaseArchives v archive := by
    simp only [releaseArchives, List.mem_map]
    exact ⟨p, hp, rfl⟩
  rcases h with h | ⟨b, h⟩
  · exact h.mem_iff.2 hm
  · exact h.mem_iff.2 (List.mem_cons_of_mem _ hm)

/-- The digest that the script finds is that of the platform's archive. -/
theorem findChecksum_listing {sha256 : Bytes → String} (hsha : ∀ b, IsDigest (sha256 b)) {v : String}
    {archive : String → Bytes} {files : List (String × Bytes)}
    (h : Listing (releaseArchives v archive) files) {p : String} (hp : p ∈ releasePlatforms) :
    findChecksum v p (checksumLines sha256 files) = some (sha256 (archive p)) := by
  have key : (checksumLines sha256 files).filter
      (fun l => matchLine (archiveName v p).toList l.toList) =
      [sha256 (archive p) ++ "  /opt/qlc/archives/" ++ archiveName v p] := by
    unfold checksumLines
    rw [List.filter_map]
    have : files.filter ((fun l : String => matchLine (archiveName v p).toList l.toList) ∘
        fun f : String × Bytes => sha256 f.2 ++ "  /opt/qlc/archives/" ++ f.1) =
        [(archiveName v p, archive p)] := by
      refine filter_eq_single (List.Nodup.of_map _ (listing_nodup h)) (mem_listing h hp) ?_ ?_
      · simp only [Function.comp_apply]
        rw [line_matches (hsha _)]
        exact own_line v p
      · intro f hf hne
        simp only [Function.comp_apply]
        rw [line_matches (hsha _)]
        rcases listing_mem h hf with e | ⟨q, hq, rfl⟩
        · rw [e]; exact list_line v p
        · refine other_line hp hq ?_
          rintro rfl
          exact hne rfl
    rw [this]
    rfl
  unfold findChecksum
  rw [key]
  simp only [joinWith]
  rw [firstWord_line (hsha _)]

theorem publishedFiles_get {v : String} : ∀ {files : List (String × Bytes)} {name : String} {b : Bytes},
    (files.map Prod.fst).Nodup → (name, b) ∈ files →
    AMap.get? (publishedFiles v files) (releaseUrl v name) = some b
  | [], _, _, _, h => by simp at h
  | (n, x) :: files, name, b, hn, hm => by
    rw [List.map_cons, List.nodup_cons] at hn
    unfold publishedFiles
    rw [List.map_cons]
    simp only [AMap.get?]
    rcases List.mem_cons.1 hm with e | e
    · cases e
      rw [if_pos rfl]
    · have hne : n ≠ name := by
        rintro rfl
        exact hn.1 (List.mem_map.2 ⟨_, e, rfl⟩)
      rw [if_neg]
      · exact publishedFiles_get hn.2 e
      · intro hu
        unfold releaseUrl at hu
        have hu' := congrArg String.toList hu
        simp only [String.toList_append, List.append_cancel_left_eq] at hu'
        exact hne (String.toList_injective hu')

end Qlc
