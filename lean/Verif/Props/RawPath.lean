import Verif.Lemmas.RawPath
import Verif.Spec.RawPath
import Verif.Props.Imports
/-
C106: how a path is spelled does not matter.
-/
set_option autoImplicit false

namespace Qlc
open Spec

/-- Components with separators between them. -/
def joinSlash : List (List Char) → List Char
  | [] => []
  | [c] => c
  | c :: d :: rest => c ++ '/' :: joinSlash (d :: rest)

theorem joinSlash_cons (c : List Char) {L : List (List Char)} (h : L ≠ []) :
    joinSlash (c :: L) = c ++ '/' :: joinSlash L := by
  cases L with
  | nil => exact absurd rfl h
  | cons d r => rfl

theorem joinWith_slash : ∀ L : List (List Char), (joinWith "/" (L.map String.ofList)).toList = joinSlash L
  | [] => rfl
  | [c] => by simp [joinWith, joinSlash]
  | c :: d :: rest => by
    have ih := joinWith_slash (d :: rest)
    simp only [List.map_cons] at ih
    simp only [List.map_cons, joinWith, joinSlash, String.toList_append, String.toList_ofList, ih]
    simp

theorem joinSlash_split : ∀ t : List Char, joinSlash (splitSlash t) = t
  | [] => rfl
  | c :: cs => by
    have ih := joinSlash_split cs
    unfold splitSlash
    split
    · rename_i h
      rw [joinSlash_cons _ (splitSlash_ne_nil cs), ih, h]
      rfl
    · cases hs : splitSlash cs with
      | nil => exact absurd hs (splitSlash_ne_nil cs)
      | cons l ls =>
        rw [hs] at ih
        simp only
        cases ls with
        | nil => rw [← ih]; rfl
        | cons m ms =>
          rw [joinSlash_cons _ (by simp)] at ih ⊢
          rw [List.cons_append, ih]

theorem split_noSlash : ∀ (t : List Char), ∀ c ∈ splitSlash t, '/' ∉ c
  | [], c, h => by simp [splitSlash] at h; simp [h]
  | a :: cs, c, h => by
    have ih := split_noSlash cs
    unfold splitSlash at h
    split at h
    · rcases List.mem_cons.1 h with rfl | h
      · simp
      · exact ih c h
    · rename_i ha
      cases hs : splitSlash cs with
      | nil => exact absurd hs (splitSlash_ne_nil cs)
      | cons l ls =>
        rw [hs] at h ih
        simp only at h
        rcases List.mem_cons.1 h with rfl | h
        · have := ih l (List.mem_cons_self ..)
          intro hm
          rcases List.mem_cons.1 hm with e | hm
          · exact ha e.symm
          · exact this hm
        · exact ih c (List.mem_cons_of_mem _ h)

theorem goodSeg_false {c : List Char} (h : goodSeg c = false) : c = [] ∨ c = ['.'] := by
  simp only [goodSeg, ne_eq, decide_eq_false_iff_not, not_and, not_not] at h
  by_cases hc : c = []
  · exact .inl hc
  · exact .inr (h hc)

theorem display_segs (t : List Char) : (Path.ofChars t).display.toList =
    (if rawAbs t then ['/'] else []) ++
      joinSlash ((if rawCurDir t then [['.']] else []) ++ segs t) := by
  rw [ofChars_segs]
  unfold Path.display
  rw [String.toList_append, ← joinWith_slash, List.map_append]
  congr 1
  · cases rawAbs t <;> simp
  · cases rawCurDir t <;> simp

/-! ### Spellings -/

theorem same_after {x y1 y2 : List Char} (h : segs y1 = segs y2) :
    Path.ofChars (x ++ '/' :: y1) = Path.ofChars (x ++ '/' :: y2) := by
  rw [ofChars_segs, ofChars_segs, segs_append, segs_append, h]
  by_cases hx : x = []
  · subst hx
    have : ∀ y, rawAbs ([] ++ '/' :: y) = true := fun y => by simp [rawAbs]
    rw [this, this, rawCurDir_abs (this _), rawCurDir_abs (this _)]
  · rw [rawAbs_append hx, rawAbs_append hx, rawCurDir_append_slash hx, rawCurDir_append_slash hx]

theorem segs_dot_slash (y : List Char) : segs ('.' :: '/' :: y) = segs y := by
  have := segs_append ['.'] y
  simp only [List.cons_append, List.nil_append] at this
  rw [this, segs_bad (c := ['.']) (by decide) rfl, List.nil_append]

theorem respelled_same {a b : List Char} (h : Respelled a b) : Path.ofChars a = Path.ofChars b := by
  induction h with
  | refl a => rfl
  | symm _ ih => exact ih.symm
  | trans _ _ ih1 ih2 => exact ih1.trans ih2
  | slashes x y =>
    have := same_after (x := x) (y1 := '/' :: y) (y2 := y) (segs_slash y)
    simpa using this
  | dot x y =>
    have := same_after (x := x) (y1 := '.' :: '/' :: y) (y2 := y) (segs_dot_slash y)
    simpa using this
  | endDot x =>
    have := same_after (x := x) (y1 := ['.']) (y2 := []) rfl
    simpa using this
  | endSlash x hx =>
    show Path.ofChars (x ++ ['/']) = _
    rw [ofChars_segs, ofChars_segs x, segs_append, segs_nil, List.append_nil, rawAbs_append hx,
      rawCurDir_append_slash hx]

/-- Redundant components can be left out one by one. -/
theorem respell_body : ∀ (L : List (List Char)), L ≠ [] → ∀ pre : List Char,
    Respelled (pre ++ '/' :: joinSlash L)
      (if L.filter goodSeg = [] then pre ++ ['/'] else pre ++ '/' :: joinSlash (L.filter goodSeg))
  | [], h, _ => absurd rfl h
  | [c], _, pre => by
    cases hg : goodSeg c with
    | true => simp [hg]; exact .refl _
    | false =>
      simp only [List.filter_cons, hg, Bool.false_eq_true, if_false, List.filter_nil, if_true, joinSlash]
      rcases goodSeg_false hg with rfl | rfl
      · exact .refl _
      · have := Respelled.endDot pre
        simpa using this
  | c :: d :: rest, _, pre => by
    have ih := respell_body (d :: rest) (by simp)
    rw [joinSlash_cons c (by simp)]
    cases hg : goodSeg c with
    | false =>
      have hf : (c :: d :: rest).filter goodSeg = (d :: rest).filter goodSeg := by
        rw [List.filter_cons, hg]; rfl
      rw [hf]
      refine Respelled.trans ?_ (ih pre)
      rcases goodSeg_false hg with rfl | rfl
      · have := Respelled.slashes pre (joinSlash (d :: rest))
        simpa using this
      · have := Respelled.dot pre (joinSlash (d :: rest))
        simpa using this
    | true =>
      have hf : (c :: d :: rest).filter goodSeg = c :: (d :: rest).filter goodSeg := by
        rw [List.filter_cons, hg]; rfl
      rw [hf, if_neg (by simp)]
      have h1 := ih (pre ++ '/' :: c)
      have e : pre ++ '/' :: (c ++ '/' :: joinSlash (d :: rest)) = pre ++ '/' :: c ++ '/' :: joinSlash (d :: rest) := by
        simp
      rw [e]
      refine Respelled.trans h1 ?_
      split
      · rename_i h0
        rw [h0]
        have := Respelled.endSlash (pre ++ '/' :: c) (by simp)
        simpa [joinSlash] using this
      · rename_i h0
        rw [joinSlash_cons c h0]
        have : Respelled (pre ++ '/' :: c ++ '/' :: joinSlash ((d :: rest).filter goodSeg))
          (pre ++ '/' :: c ++ '/' :: joinSlash ((d :: rest).filter goodSeg)) := .refl _
        simpa using this

/-- A relative text that is not empty: its first component, and the rest. -/
theorem rel_parts {t : List Char} (ht : t ≠ []) (ha : rawAbs t = false) :
    ∃ c L, splitSlash t = c :: L ∧ c ≠ [] ∧ (rawCurDir t = true → c = ['.'] ∧ segs t = L.filter goodSeg) ∧
      (rawCurDir t = false → goodSeg c = true ∧ segs t = c :: L.filter goodSeg) := by
  cases t with
  | nil => exact absurd rfl ht
  | cons a cs =>
    have hc : a ≠ '/' := by
      intro e
      simp [rawAbs, e] at ha
    obtain ⟨l, ls, h1, h2⟩ := splitSlash_head a cs hc
    refine ⟨a :: l, ls, h1, by simp, ?_, ?_⟩
    · intro h
      have hd := h2.2 h
      refine ⟨hd, ?_⟩
      unfold segs
      rw [h1, hd]
      rfl
    · intro h
      have hd : a :: l ≠ ['.'] := fun e => by rw [h2.1 e] at h; cases h
      have hg : goodSeg (a :: l) = true := decide_eq_true ⟨by simp, hd⟩
      refine ⟨hg, ?_⟩
      unfold segs
      rw [h1, List.filter_cons, hg]
      rfl

/-- Every text is a spelling of the text that shows its components. -/
theorem respelled_display (t : List Char) : Respelled t (Path.ofChars t).display.toList := by
  rw [display_segs]
  cases ha : rawAbs t with
  | true =>
    rw [rawCurDir_abs ha]
    cases t with
    | nil => simp [rawAbs] at ha
    | cons c cs =>
      have hc : c = '/' := by simpa [rawAbs] using ha
      subst hc
      have := respell_body (splitSlash cs) (splitSlash_ne_nil cs) []
      rw [joinSlash_split] at this
      simp only [List.nil_append] at this
      simp only [if_true, Bool.false_eq_true, if_false, List.nil_append, segs_slash, List.cons_append]
      unfold segs
      by_cases h0 : (splitSlash cs).filter goodSeg = []
      · rw [if_pos h0] at this
        rw [h0]
        exact this
      · rw [if_neg h0] at this
        exact this
  | false =>
    by_cases ht : t = []
    · subst ht
      exact .refl _
    · obtain ⟨c, L, h1, h2, h3, h4⟩ := rel_parts ht ha
      have hfirst : (if rawCurDir t then [['.']] else []) ++ segs t = c :: L.filter goodSeg := by
        cases hc : rawCurDir t with
        | true =>
          obtain ⟨e1, e2⟩ := h3 hc
          rw [e1, e2]; rfl
        | false => rw [(h4 hc).2]; rfl
      rw [hfirst]
      simp only [Bool.false_eq_true, if_false, List.nil_append]
      have ht' := joinSlash_split t
      rw [h1] at ht'
      cases hL : L with
      | nil =>
        rw [hL] at ht'
        rw [← ht']
        exact .refl _
      | cons d ds =>
        rw [← hL]
        have hne : L ≠ [] := by rw [hL]; simp
        rw [joinSlash_cons c hne] at ht'
        have := respell_body L hne c
        rw [ht'] at this
        refine Respelled.trans this ?_
        split
        · rename_i h0
          rw [h0]
          exact Respelled.endSlash c h2
        · rename_i h0
          rw [joinSlash_cons c h0]
          exact .refl _

/-- C106: two texts are spellings of one path exactly if they have the same components, that is if the
program (which compares and hashes paths by components) takes them for the same path. -/
theorem C106_same_components (a b : String) :
    Path.ofString a = Path.ofString b ↔ Respelled a.toList b.toList := by
  constructor
  · intro h
    have h1 := respelled_display a.toList
    have h2 := respelled_display b.toList
    have h : Path.ofChars a.toList = Path.ofChars b.toList := h
    rw [h] at h1
    exact h1.trans h2.symm
  · exact fun h => respelled_same h

/-- C106: the operations of `std::path` on texts do to the components what the model says. -/
theorem C106_operations (a b : List Char) (ext : String) (he : '/' ∉ ext.toList) :
    Path.ofChars (rawJoin a b) = (Path.ofChars a).join (Path.ofChars b) ∧
    Path.ofChars (rawPop a) = (Path.ofChars a).pop ∧
    (rawExtension a).map String.ofList = (Path.ofChars a).extension ∧
    Path.ofChars (rawWithExtension a ext.toList) = (Path.ofChars a).withExtension ext :=
  ⟨ofChars_join a b, ofChars_pop a, (ofChars_extension a).symm, ofChars_withExtension a ext he⟩

/-- C106: the paths that the program computes from the text of its options, of the file it compiles and of
an import line are, up to their spelling, those of the model: the file an import line names, the output of a
document and the globals file. -/
theorem C106_program_paths (cfg : CompileConfig) (root file text : List Char)
    (hr : Path.ofChars root = cfg.rootDir) :
    Path.ofChars (rawResolveImport cfg.rootDirImportPrefix root text (rawPop file)) =
      resolveImport cfg text (Path.ofChars file).pop ∧
    Path.ofChars (rawOutputPath file) = outputPath (Path.ofChars file) ∧
    Path.ofChars (rawGlobalsPath cfg.rootDirImportPrefix cfg.globalTypesModuleName root) =
      globalsPath cfg cfg.rootDir := by
  refine ⟨?_, ofChars_withExtension file _ (by decide), ?_⟩
  · unfold rawResolveImport resolveImport
    cases cfg.rootDirImportPrefix.bind (fun p => stripPrefixC p.toList text) with
    | some rest => simp only [ofChars_join, hr]
    | none =>
      simp only
      split
      · rw [ofChars_join, ofChars_pop]
      · rw [ofChars_join, hr]
  · have ext : ∀ (t : List Char) (p : Path), Path.ofChars t = p →
        Path.ofChars (if (rawExtension t).isSome then t else rawWithExtension t "ts".toList) =
          if p.extension.isSome then p else p.withExtension "ts" := by
      rintro t p rfl
      rw [ofChars_extension, Option.isSome_map]
      split
      · rfl
      · exact ofChars_withExtension _ "ts" (by decide)
    unfold rawGlobalsPath globalsPath
    cases cfg.rootDirImportPrefix.bind (fun p => stripPrefixC p.toList cfg.globalTypesModuleName.toList) with
    | some rest => exact ext _ _ (by rw [ofChars_join, hr])
    | none => exact ext _ _ (by rw [ofChars_join, hr]; rfl)

/-- C106: however the root directory, the importing file and the imported path are spelled, the imported
file, the output and the globals file are the same. -/
theorem C106_spelling_does_not_matter (cfg : CompileConfig) (root root' file file' text : List Char)
    (hr : Respelled root root') (hf : Respelled file file') (hcfg : Path.ofChars root = cfg.rootDir) :
    Respelled (rawResolveImport cfg.rootDirImportPrefix root text (rawPop file))
      (rawResolveImport cfg.rootDirImportPrefix root' text (rawPop file')) ∧
    Respelled (rawOutputPath file) (rawOutputPath file') ∧
    Respelled (rawGlobalsPath cfg.rootDirImportPrefix cfg.globalTypesModuleName root)
      (rawGlobalsPath cfg.rootDirImportPrefix cfg.globalTypesModuleName root') := by
  have h1 := C106_program_paths cfg root file text hcfg
  have h2 := C106_program_paths cfg root' file' text ((respelled_same hr).symm.trans hcfg)
  have hff := respelled_same hf
  have back : ∀ a b : List Char, Path.ofChars a = Path.ofChars b → Respelled a b := fun a b h => by
    have := (C106_same_components (String.ofList a) (String.ofList b)).1
      (by simpa [Path.ofString] using h)
    simpa using this
  exact ⟨back _ _ (by rw [h1.1, h2.1, hff]), back _ _ (by rw [h1.2.1, h2.2.1, hff]),
    back _ _ (by rw [h1.2.2, h2.2.2])⟩

/-! ### What messages show -/

theorem tidy_body : ∀ (L : List (List Char)), L ≠ [] → ∀ pre : List Char,
    Tidy (pre ++ '/' :: joinSlash L) → L.filter goodSeg = L ∨ pre = [] ∧ L = [[]]
  | [], h, _, _ => absurd rfl h
  | [c], _, pre, h => by
    cases hg : goodSeg c with
    | true => left; simp [hg]
    | false =>
      rcases goodSeg_false hg with rfl | rfl
      · right
        by_cases hp : pre = []
        · exact ⟨hp, rfl⟩
        · exact absurd rfl (h.noEndSlash pre hp)
      · exact absurd rfl (h.noEndDot pre)
  | c :: d :: rest, _, pre, h => by
    left
    rw [joinSlash_cons c (by simp)] at h
    cases hg : goodSeg c with
    | false =>
      exfalso
      rcases goodSeg_false hg with rfl | rfl
      · exact h.noSlashes ⟨pre, joinSlash (d :: rest), by simp⟩
      · exact h.noDot ⟨pre, joinSlash (d :: rest), by simp⟩
    | true =>
      have e : pre ++ '/' :: (c ++ '/' :: joinSlash (d :: rest)) = pre ++ '/' :: c ++ '/' :: joinSlash (d :: rest) := by
        simp
      rw [e] at h
      rcases tidy_body (d :: rest) (by simp) _ h with h' | ⟨h', _⟩
      · rw [List.filter_cons, hg, h']
        rfl
      · simp at h'

/-- C106: messages of the model show a tidy text as it was written, and any other text in a spelling that
names the same path. -/
theorem C106_shown (t : String) : Path.ofString (Path.ofString t).display = Path.ofString t ∧
    (Tidy t.toList → (Path.ofString t).display = t) := by
  constructor
  · exact (respelled_same (respelled_display t.toList)).symm
  · intro h
    apply String.toList_injective
    show (Path.ofChars t.toList).display.toList = _
    revert h
    generalize t.toList = t
    intro h
    rw [display_segs]
    cases ha : rawAbs t with
    | true =>
      rw [rawCurDir_abs ha]
      cases t with
      | nil => simp [rawAbs] at ha
      | cons c cs =>
        have hc : c = '/' := by simpa [rawAbs] using ha
        subst hc
        have hs := joinSlash_split cs
        simp only [if_true, Bool.false_eq_true, if_false, List.nil_append, segs_slash, List.cons_append]
        have h' : Tidy ([] ++ '/' :: joinSlash (splitSlash cs)) := by rw [hs]; exact h
        unfold segs
        rcases tidy_body (splitSlash cs) (splitSlash_ne_nil cs) [] h' with h1 | ⟨_, h1⟩
        · rw [h1, hs]
        · rw [h1] at hs ⊢
          rw [← hs]
          rfl
    | false =>
      by_cases ht : t = []
      · subst ht
        rfl
      · obtain ⟨c, L, h1, h2, h3, h4⟩ := rel_parts ht ha
        have hfirst : (if rawCurDir t then [['.']] else []) ++ segs t = c :: L.filter goodSeg := by
          cases hc : rawCurDir t with
          | true =>
            obtain ⟨e1, e2⟩ := h3 hc
            rw [e1, e2]; rfl
          | false => rw [(h4 hc).2]; rfl
        rw [hfirst]
        simp only [Bool.false_eq_true, if_false, List.nil_append]
        have ht' := joinSlash_split t
        rw [h1] at ht'
        by_cases hL : L = []
        · rw [hL] at ht' ⊢
          exact ht'
        · have h' : Tidy (c ++ '/' :: joinSlash L) := by rw [← joinSlash_cons c hL, ht']; exact h
          rcases tidy_body L hL c h' with h5 | ⟨h5, _⟩
          · rw [h5, ht']
          · exact absurd h5 h2

/-- C106: the text of a path below a directory, as the program shows it: the text of the directory as the
user wrote it, a separator unless there is one, and the names. -/
theorem C106_text_below (dir : List Char) (hd : dir ≠ []) (hs : dir.getLast? ≠ some '/')
    (name : List Char) (names : List (List Char)) (hn : ∀ n ∈ name :: names, n ≠ [] ∧ '/' ∉ n) :
    (name :: names).foldl rawJoin dir = dir ++ '/' :: joinSlash (name :: names) := by
  have step : ∀ (d n : List Char), d ≠ [] → d.getLast? ≠ some '/' → n ≠ [] ∧ '/' ∉ n →
      rawJoin d n = d ++ '/' :: n := by
    intro d n hd hl ⟨h1, h2⟩
    unfold rawJoin
    have : rawAbs n = false := by
      cases h : rawAbs n with
      | false => rfl
      | true =>
        simp only [rawAbs, decide_eq_true_eq] at h
        exact absurd (List.mem_of_mem_head? h) h2
    rw [this, if_neg (by simp), if_neg (by simp [hd, hl])]
  have last : ∀ (d n : List Char), n ≠ [] ∧ '/' ∉ n → (d ++ '/' :: n).getLast? ≠ some '/' := by
    intro d n ⟨h1, h2⟩ h
    rw [List.getLast?_append, List.getLast?_cons] at h
    cases n with
    | nil => exact h1 rfl
    | cons a r =>
      rw [List.getLast?_eq_some_getLast (by simp)] at h
      simp only [Option.getD_some, Option.some_or, Option.some.injEq] at h
      exact h2 (by rw [← h]; exact List.getLast_mem _)
  induction names generalizing dir name with
  | nil => exact step dir name hd hs (hn name (by simp))
  | cons m ms ih =>
    rw [List.foldl_cons, step dir name hd hs (hn name (by simp)),
      ih (dir ++ '/' :: name) (by simp) (last dir name (hn name (by simp))) m
        (fun n h => hn n (List.mem_cons_of_mem _ h)), joinSlash_cons name (by simp)]
    simp

/-- C106, an example: the root is spelled `./src//` or `./src`, the file is `./src/a/./q.graphql` or
`./src/a/q.graphql`, and it imports `./f.graphql`: the texts differ, the file is the same. -/
theorem C106_demo :
    rawResolveImport none "./src//".toList "./f.graphql".toList (rawPop "./src/a/./q.graphql".toList) =
      "./src/a/./f.graphql".toList ∧
    Respelled "./src/a/./f.graphql".toList "./src/a/f.graphql".toList ∧
    Respelled "./src//".toList "./src".toList ∧
    Respelled "./src/a/./q.graphql".toList "./src/a/q.graphql".toList ∧
    ¬ Respelled "./src".toList "src".toList ∧
    rawOutputPath "./src/a/./q.graphql".toList = "./src/a/./q.graphql.d.ts".toList := by
  refine ⟨by decide +kernel, ?_, ?_, ?_, ?_, by decide +kernel⟩
  · exact .dot "./src/a".toList "f.graphql".toList
  · exact .trans (.slashes "./src".toList []) (.endSlash "./src".toList (by decide))
  · exact .dot "./src/a".toList "q.graphql".toList
  · intro h
    exact absurd (respelled_same h) (by decide +kernel)

/-- A tidy text. -/
example : Tidy "./src/a/q.graphql".toList := by
  refine ⟨by decide +kernel, by decide +kernel, ?_, ?_⟩
  · intro x _ h
    have := congrArg List.getLast? h
    rw [List.getLast?_append] at this
    revert this
    simp
  · intro x h
    have := congrArg List.getLast? h
    rw [List.getLast?_append] at this
    revert this
    simp

end Qlc
