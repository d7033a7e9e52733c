import Verif.Spec.Imports
import Verif.Lemmas.Basic
import Verif.Lemmas.Text
import Mathlib.Logic.Relation
/-
Properties C33 - C39: import lines, import targets, the import closure, fragments in scope.
-/
set_option autoImplicit false

namespace Qlc
open Spec

/-! ### C33: which lines count -/

theorem dropWhile_eq_nil {α : Type} (p : α → Bool) (l : List α) :
    l.dropWhile p = [] ↔ ∀ x ∈ l, p x = true := by
  induction l with
  | nil => simp
  | cons a l ih =>
    simp only [List.dropWhile_cons]
    cases h : p a <;> simp [h, ih]

theorem trimC_empty_iff (l : List Char) : (trimC l).isEmpty = isBlank l := by
  rw [Bool.eq_iff_iff]
  unfold trimC isBlank
  simp only [List.isEmpty_iff, List.reverse_eq_nil_iff, dropWhile_eq_nil, List.mem_reverse,
    List.all_eq_true]
  constructor
  · intro h
    have hnil : l.dropWhile isWs = [] := by
      cases hd : l.dropWhile isWs with
      | nil => rfl
      | cons a r =>
        exfalso
        have ha := h a (by rw [hd]; simp)
        have : ¬ isWs a = true := by
          have := List.head_dropWhile_not isWs (l := l) (by rw [hd]; simp)
          simp only [hd, List.head_cons] at this
          simp [this]
        exact this ha
    exact (dropWhile_eq_nil _ _).1 hnil
  · intro h x hx
    exact h x ((List.dropWhile_suffix _).subset hx)

theorem stripPrefixC_some {p cs r : List Char} : stripPrefixC p cs = some r ↔ cs = p ++ r := by
  induction p generalizing cs with
  | nil => simp [stripPrefixC, eq_comm]
  | cons a p ih =>
    cases cs with
    | nil => simp [stripPrefixC]
    | cons c cs =>
      simp only [stripPrefixC]
      by_cases h : a = c
      · simp [h, ih]
      · have : ¬ c = a := fun e => h e.symm
        simp [h, this]

theorem stripPrefixC_none {p cs : List Char} : stripPrefixC p cs = none ↔ ¬ p <+: cs := by
  constructor
  · rintro h ⟨r, hr⟩
    have := stripPrefixC_some.2 hr.symm
    rw [h] at this; simp at this
  · intro h
    cases hs : stripPrefixC p cs with
    | none => rfl
    | some r => exact absurd ⟨r, (stripPrefixC_some.1 hs).symm⟩ h

theorem import_lit : "#import \"".toList = ['#', 'i', 'm', 'p', 'o', 'r', 't', ' ', '"'] := by decide

/-- `lineKind` in the specification's words. -/
def lineKindMeant (l : List Char) (i : Nat) : LineKind → Prop
  | .skip => (isBlank l || decide (l.head? = some '#')) = true ∧ importLine? l i = none
  | .stop => (isBlank l || decide (l.head? = some '#')) = false
  | .import after => (isBlank l || decide (l.head? = some '#')) = true ∧
      importLine? l i = some ⟨i, l, after⟩

/-- What the code does with a line, in the specification's words. -/
theorem lineKind_spec (l : List Char) (i : Nat) : lineKindMeant l i (lineKind l) := by
  unfold lineKind importStart
  rw [trimC_empty_iff, import_lit]
  cases hb : isBlank l with
  | true =>
    simp only [if_true, lineKindMeant, importLine?, hb, Bool.true_or, true_and]
    rw [if_neg]
    rw [import_lit]
    rintro ⟨r, hr⟩
    subst hr
    revert hb
    have : isWs '#' = false := by decide
    simp [isBlank, this]
  | false =>
    simp only [Bool.false_eq_true, if_false]
    cases hs : stripPrefixC ['#', 'i', 'm', 'p', 'o', 'r', 't', ' ', '"'] l with
    | some r =>
      have h1 := stripPrefixC_some.1 hs
      have hp : ['#', 'i', 'm', 'p', 'o', 'r', 't', ' ', '"'] <+: l := ⟨r, h1.symm⟩
      have hd : l.drop 9 = r := by rw [h1]; rfl
      have hh : l.head? = some '#' := by rw [h1]; rfl
      simp only [lineKindMeant, importLine?, import_lit, if_pos hp, hd, hh, decide_true, Bool.or_true,
        and_self]
    | none =>
      have hp := stripPrefixC_none.1 hs
      by_cases hh : l.head? = some '#'
      · simp only [hh, if_true, lineKindMeant, importLine?, import_lit, if_neg hp, decide_true,
          Bool.or_true, and_self]
      · simp only [hh, if_false, lineKindMeant, hb, decide_false, Bool.or_false]

theorem importLoop_eq (w : World) (cfg : CompileConfig) (file : Path)
    (rec : Path → String → ImportSt → Option (PanicOr ImportSt)) :
    ∀ (ls : List (List Char)) (idx : Nat) (s : ImportSt),
      importLoop w cfg file file.pop rec idx ls s =
        handleAll (handleImport w.read (fun a => getFilePathOfFragment cfg a file.pop) file rec)
          (((commentBlock ls).zipIdx (idx + 1)).filterMap (fun e => importLine? e.1 e.2)) s
  | [], idx, s => by simp [importLoop, commentBlock, handleAll]
  | l :: ls, idx, s => by
    have hk := lineKind_spec l (idx + 1)
    have ih := importLoop_eq w cfg file rec ls (idx + 1)
    simp only [importLoop, commentBlock, List.takeWhile_cons]
    cases hl : lineKind l with
    | stop =>
      simp only [hl, lineKindMeant] at hk
      simp [hk, handleAll]
    | skip =>
      simp only [hl, lineKindMeant] at hk
      simp only [hk.1, if_true, List.zipIdx_cons, List.filterMap_cons, hk.2]
      exact ih s
    | «import» after =>
      simp only [hl, lineKindMeant] at hk
      simp only [hk.1, if_true, List.zipIdx_cons, List.filterMap_cons, hk.2, handleAll, handleImport]
      cases hf : getFilePathOfFragment cfg after file.pop with
      | none => rfl
      | some q =>
        simp only [readGraphqlFile]
        cases hr : w.read q with
        | error e => exact ih _
        | ok c =>
          simp only
          cases hrec : rec q c s with
          | none => rfl
          | some r =>
            cases r with
            | panic => rfl
            | done s' => exact ih _

theorem imports_are_the_leading_block (w : World) (cfg : CompileConfig) (fuel : Nat) (file : Path)
    (contents : String) (s : ImportSt) :
    addImported w cfg (fuel + 1) file contents s =
      handleAll (handleImport w.read (fun a => getFilePathOfFragment cfg a file.pop) file
        (addImported w cfg fuel)) (importsOf contents) s :=
  importLoop_eq w cfg file _ _ 0 s

/-- C33: scanning a file's imports handles exactly the import lines of its leading comment block, one
after the other, whatever else the file contains. -/
theorem C33_imports_are_the_leading_block (w : World) (cfg : CompileConfig) (fuel : Nat) (file : Path)
    (contents : String) (ls : List (List Char)) (hl : IsLines contents.toList ls) (s : ImportSt) :
    addImported w cfg (fuel + 1) file contents s =
      handleAll (handleImport w.read (fun a => getFilePathOfFragment cfg a file.pop) file
        (addImported w cfg fuel)) (importLines ls) s := by
  rw [(isLines_iff _ _).1 hl]
  exact imports_are_the_leading_block w cfg fuel file contents s

/-- Lines ended by `\n`, by `\r\n` and by the end of the file. -/
example : IsLines "# a\r\n\n#import \"b\"".toList ["# a".toList, [], "#import \"b\"".toList] :=
  (isLines_iff _ _).2 (by decide +kernel)

/-- C33, as the user sees it: text after the leading comment block never matters. -/
theorem C33_later_lines_ignored (w : World) (cfg : CompileConfig) (fuel : Nat) (file : Path)
    (contents contents' : String) (ls ls' : List (List Char)) (hl : IsLines contents.toList ls)
    (hl' : IsLines contents'.toList ls') (h : commentBlock ls = commentBlock ls') (s : ImportSt) :
    addImported w cfg fuel file contents s = addImported w cfg fuel file contents' s := by
  cases fuel with
  | zero => rfl
  | succ n =>
    rw [C33_imports_are_the_leading_block w cfg n file contents ls hl,
      C33_imports_are_the_leading_block w cfg n file contents' ls' hl']
    unfold importLines
    rw [h]

example : (importsOf "# c\n\n#import \"a.graphql\"\n# d\n#import \"b\"\nquery A { a }\n#import \"c\"").map
    (fun l => (l.number, String.ofList l.after)) = [(3, "a.graphql\""), (5, "b\"")] := by decide +kernel

/-! ### C34: targets -/

theorem beforeLastQuote_append (text tail : List Char) (h : '"' ∉ tail) :
    beforeLastQuote (text ++ '"' :: tail) = some text := by
  unfold beforeLastQuote
  have : ((text ++ '"' :: tail).reverse).dropWhile (fun c => decide (c ≠ '"')) =
      '"' :: text.reverse := by
    rw [List.reverse_append, List.reverse_cons, List.append_assoc]
    rw [List.dropWhile_append]
    have h1 : (tail.reverse).dropWhile (fun c => decide (c ≠ '"')) = [] := by
      rw [dropWhile_eq_nil]
      intro x hx
      have : x ≠ '"' := fun e => h (by rw [← e]; simpa using hx)
      simp [this]
    rw [h1]
    simp
  simp only [this]
  simp

theorem dropWhile_head {α : Type} {p : α → Bool} {l : List α} {a : α} {r : List α}
    (h : l.dropWhile p = a :: r) : p a = false := by
  induction l with
  | nil => simp at h
  | cons b l ih =>
    rw [List.dropWhile_cons] at h
    split at h
    · exact ih h
    · rename_i hb
      injection h with h1 h2
      subst h1; simpa using hb

theorem beforeLastQuote_none (cs : List Char) : beforeLastQuote cs = none ↔ '"' ∉ cs := by
  unfold beforeLastQuote
  cases hd : cs.reverse.dropWhile (fun c => decide (c ≠ '"')) with
  | nil =>
    simp only [true_iff]
    rw [dropWhile_eq_nil] at hd
    intro h
    have := hd '"' (by simpa using h)
    simp at this
  | cons a r =>
    simp only [reduceCtorEq, false_iff, Decidable.not_not]
    have h1 := dropWhile_head hd
    simp only [ne_eq, decide_not, Bool.not_eq_false', decide_eq_true_eq] at h1
    have : a ∈ cs.reverse := (List.dropWhile_suffix _).subset (by rw [hd]; simp)
    rw [← h1]; simpa using this

theorem ofChars_abs (t : List Char) : (Path.ofChars t).abs = decide (t.head? = some '/') := by
  unfold Path.ofChars
  simp only
  split
  · rename_i h; rw [h.1]
  · rfl

theorem relComps_eq (t : List Char) :
    ((splitSlash t).map String.ofList).filter (fun c => decide (c ≠ "" ∧ c ≠ ".")) =
      (((splitSlash t).filter (fun c => !c.isEmpty)).map String.ofList).filter
        (fun c => decide (c ≠ ".")) := by
  induction splitSlash t with
  | nil => rfl
  | cons c cs ih =>
    simp only [List.map_cons, List.filter_cons]
    cases c with
    | nil => simpa using ih
    | cons a c =>
      have : String.ofList (a :: c) ≠ "" := by
        intro e
        have := congrArg String.toList e
        simp at this
      simp only [ne_eq, this, not_false_eq_true, true_and, List.isEmpty_cons, Bool.not_false,
        if_true, List.map_cons, List.filter_cons]
      simp only [ne_eq] at ih
      rw [ih]

/-- Joining with a parsed text is what the specification says. -/
theorem join_under (d : Path) (t : List Char) : d.join (Path.ofChars t) = under d t := by
  unfold Path.join under
  rw [ofChars_abs]
  by_cases h : t.head? = some '/'
  · simp [h]
  · simp only [h, decide_false, Bool.false_eq_true, if_false]
    by_cases hd : d.abs = false ∧ d.comps = []
    · simp [hd.1, hd.2]
    · have hb : (d.abs || !d.comps.isEmpty) = true := by
        cases ha : d.abs
        · cases hc : d.comps with
          | nil => exact absurd ⟨ha, hc⟩ hd
          | cons a r => rfl
        · rfl
      rw [if_pos hb, if_neg hd, relComps_eq]
      congr 2
      unfold Path.ofChars
      simp only [h, decide_false, true_and]
      generalize (((splitSlash t).filter (fun c => !c.isEmpty)).map String.ofList) = parts
      cases parts with
      | nil => rfl
      | cons p rest =>
        by_cases hp : p = "."
        · subst hp
          simp
        · simp [hp]

/-- C34: where an import line `#import "text"…` leads.  If the text starts with the configured root
prefix, the rest is looked up from the root directory; otherwise a text starting with `.` is looked up
from the importing file's directory and any other text from the root directory.  Looking up an
absolute text (`under`) leaves the directory altogether: this also happens to the rest `/x` of `@/x`
with prefix `@`. -/
theorem C34_import_target (cfg : CompileConfig) (dir : Path) (text tail : List Char)
    (h : '"' ∉ tail) :
    (∀ pre rest, cfg.rootDirImportPrefix = some pre → text = pre.toList ++ rest →
      getFilePathOfFragment cfg (text ++ '"' :: tail) dir = some (under cfg.rootDir rest)) ∧
    ((∀ pre, cfg.rootDirImportPrefix = some pre → ¬ pre.toList <+: text) →
      (text.head? = some '.' →
        getFilePathOfFragment cfg (text ++ '"' :: tail) dir = some (under dir text)) ∧
      (text.head? ≠ some '.' →
        getFilePathOfFragment cfg (text ++ '"' :: tail) dir = some (under cfg.rootDir text))) := by
  unfold getFilePathOfFragment importPathText
  rw [beforeLastQuote_append text tail h]
  simp only [Option.map_some, Option.some.injEq, resolveImport, join_under]
  constructor
  · intro pre rest hp ht
    rw [hp]
    simp only [Option.bind_some]
    rw [stripPrefixC_some.2 ht]
  · intro hno
    have : cfg.rootDirImportPrefix.bind (fun pre => stripPrefixC pre.toList text) = none := by
      cases hp : cfg.rootDirImportPrefix with
      | none => rfl
      | some pre => exact stripPrefixC_none.2 (hno pre hp)
    rw [this]
    constructor
    · intro hd; simp [hd]
    · intro hd; simp [hd]

/-- The configuration of the examples: root `/r`, prefix `@`. -/
def importCfg : CompileConfig :=
  { bottomTypeConfig := .defaultBottomType, useReadonlyTypes := true, globalTypesModuleName := "g"
    typedGraphqlDocumentnodeModuleName := "m", rootDir := ⟨true, ["r"]⟩
    showDeprecationWarnings := false, rootDirImportPrefix := some "@" }

example : getFilePathOfFragment importCfg "@a/./b.graphql\"".toList ⟨true, ["r", "d"]⟩ =
    some ⟨true, ["r", "a", "b.graphql"]⟩ := by decide +kernel
example : getFilePathOfFragment importCfg "./b.graphql\" # x".toList ⟨true, ["r", "d"]⟩ =
    some ⟨true, ["r", "d", "b.graphql"]⟩ := by decide +kernel
example : getFilePathOfFragment importCfg "x/b.graphql\"".toList ⟨true, ["r", "d"]⟩ =
    some ⟨true, ["r", "x", "b.graphql"]⟩ := by decide +kernel

/-- C34, the trap: with prefix `@`, the customary `@/x` leaves the root directory. -/
theorem C34_defect_witness : getFilePathOfFragment importCfg "@/x\"".toList ⟨true, ["r", "d"]⟩ =
    some ⟨true, ["x"]⟩ := by decide +kernel

/-! ### C37: the only crash -/

/-- C37: resolving an import line panics exactly when nothing closes the quote. -/
theorem C37_panics_iff_unterminated (cfg : CompileConfig) (after : List Char) (dir : Path) :
    getFilePathOfFragment cfg after dir = none ↔ '"' ∉ after := by
  unfold getFilePathOfFragment importPathText
  rw [Option.map_eq_none_iff, beforeLastQuote_none]

example : '"' ∉ "foo.graphql".toList := by decide +kernel
example : ¬ '"' ∉ "foo.graphql\"".toList := by decide +kernel

/-! ### C35, C36, C37: scanning the import graph -/

section Scan
variable (w : World) (cfg : CompileConfig)

/-- Some import line in `ils` of a file in `dir` leads to a readable file satisfying `P`. -/
def Via (dir : Path) (ils : List ImportLine) (P : Path → String → Prop) : Prop :=
  ∃ il ∈ ils, ∃ p c, getFilePathOfFragment cfg il.after dir = some p ∧ w.read p = .ok c ∧ P p c

theorem via_nil (dir : Path) (P : Path → String → Prop) : ¬ Via w cfg dir [] P := by
  rintro ⟨_, h, _⟩; simp at h

theorem via_cons (dir : Path) (il : ImportLine) (ils : List ImportLine) (P : Path → String → Prop) :
    Via w cfg dir (il :: ils) P ↔
      (∃ p c, getFilePathOfFragment cfg il.after dir = some p ∧ w.read p = .ok c ∧ P p c) ∨
        Via w cfg dir ils P := by
  unfold Via
  simp only [List.mem_cons, exists_eq_or_imp]

theorem loads_iff (file : Path) (contents : String) (q : Path) :
    Loads w cfg file contents q ↔
      Via w cfg file.pop (importsOf contents) (fun p c => q = p ∨ Loads w cfg p c q) := by
  constructor
  · intro h
    cases h with
    | direct hi hr => exact ⟨_, hi.1, _, _, hi.2, hr, .inl rfl⟩
    | trans hi hr hl => exact ⟨_, hi.1, _, _, hi.2, hr, .inr hl⟩
  · rintro ⟨il, hm, p, c, ht, hr, hq | hq⟩
    · subst hq; exact .direct ⟨hm, ht⟩ hr
    · exact .trans ⟨hm, ht⟩ hr hq

theorem importErr_iff (file : Path) (contents : String) (m : Msg) :
    ImportErr w cfg file contents m ↔
      (∃ il ∈ importsOf contents, ∃ q e, getFilePathOfFragment cfg il.after file.pop = some q ∧
        w.read q = .error e ∧ m = unreadable file il q e) ∨
      Via w cfg file.pop (importsOf contents) (fun p c => ImportErr w cfg p c m) := by
  constructor
  · intro h
    cases h with
    | here hi hr => exact .inl ⟨_, hi.1, _, _, hi.2, hr, rfl⟩
    | there hi hr hl => exact .inr ⟨_, hi.1, _, _, hi.2, hr, hl⟩
  · rintro (⟨il, hm, q, e, ht, hr, rfl⟩ | ⟨il, hm, p, c, ht, hr, hl⟩)
    · exact .here ⟨hm, ht⟩ hr
    · exact .there ⟨hm, ht⟩ hr hl

/-- What a visit of `(file, contents)` turns `s` into, when it ends normally. -/
structure Visited (file : Path) (contents : String) (s s' : ImportSt) : Prop where
  keys : ∀ q, q ∈ AMap.keys s'.imports ↔ q ∈ AMap.keys s.imports ∨ Loads w cfg file contents q
  msgs : ∀ m, m ∈ s'.messages ↔ m ∈ s.messages ∨ ImportErr w cfg file contents m
  entries : ∀ q c loc, (q, (c, loc)) ∈ s'.imports → (q, (c, loc)) ∈ s.imports ∨
    (w.read q = .ok c ∧ ∃ importer ic il, ((importer = file ∧ ic = contents) ∨
      (Loads w cfg file contents importer ∧ w.read importer = .ok ic)) ∧
      Imports cfg importer ic il q ∧ loc = il.loc)
  nodup : (AMap.keys s.imports).Nodup → (AMap.keys s'.imports).Nodup

theorem mem_insert_cases {K V : Type} [DecidableEq K] {m : AMap K V} {k : K} {v : V} {e : K × V}
    (h : e ∈ AMap.insert m k v) : e ∈ m ∨ e = (k, v) := by
  induction m with
  | nil => simpa [AMap.insert] using h
  | cons x m ih =>
    obtain ⟨k', v'⟩ := x
    simp only [AMap.insert] at h
    split at h
    · rename_i hk
      subst hk
      rcases List.mem_cons.1 h with h | h
      · exact .inr h
      · exact .inl (List.mem_cons_of_mem _ h)
    · rcases List.mem_cons.1 h with h | h
      · exact .inl (by rw [h]; simp)
      · rcases ih h with h | h
        · exact .inl (List.mem_cons_of_mem _ h)
        · exact .inr h

theorem handleAll_visited {visit : Path → String → ImportSt → Option (PanicOr ImportSt)}
    (hv : ∀ p c s s', visit p c s = some (.done s') → Visited w cfg p c s s')
    (file : Path) (contents : String) :
    ∀ (ils : List ImportLine) (s s' : ImportSt), (∀ il ∈ ils, il ∈ importsOf contents) →
      handleAll (handleImport w.read (fun a => getFilePathOfFragment cfg a file.pop) file visit)
        ils s = some (.done s') →
      (∀ q, q ∈ AMap.keys s'.imports ↔ q ∈ AMap.keys s.imports ∨
        Via w cfg file.pop ils (fun p c => q = p ∨ Loads w cfg p c q)) ∧
      (∀ m, m ∈ s'.messages ↔ m ∈ s.messages ∨
        ((∃ il ∈ ils, ∃ q e, getFilePathOfFragment cfg il.after file.pop = some q ∧
          w.read q = .error e ∧ m = unreadable file il q e) ∨
        Via w cfg file.pop ils (fun p c => ImportErr w cfg p c m))) ∧
      (∀ q c loc, (q, (c, loc)) ∈ s'.imports → (q, (c, loc)) ∈ s.imports ∨
        (w.read q = .ok c ∧ ∃ importer ic il, ((importer = file ∧ ic = contents) ∨
          (Loads w cfg file contents importer ∧ w.read importer = .ok ic)) ∧
          Imports cfg importer ic il q ∧ loc = il.loc)) ∧
      ((AMap.keys s.imports).Nodup → (AMap.keys s'.imports).Nodup)
  | [], s, s', _, h => by
    simp only [handleAll, Option.some.injEq, PanicOr.done.injEq] at h
    subst h
    refine ⟨fun q => ?_, fun m => ?_, fun q c loc hq => .inl hq, id⟩
    · constructor
      · exact .inl
      · rintro (h | h)
        · exact h
        · exact absurd h (via_nil w cfg _ _)
    · constructor
      · exact .inl
      · rintro (h | ⟨_, h, _⟩ | h)
        · exact h
        · simp at h
        · exact absurd h (via_nil w cfg _ _)
  | il :: ils, s, s', hm, h => by
    have hil : il ∈ importsOf contents := hm il (by simp)
    have ih := handleAll_visited hv file contents ils
    simp only [handleAll] at h
    cases ht : getFilePathOfFragment cfg il.after file.pop with
    | none => simp [handleImport, ht] at h
    | some p =>
      cases hr : w.read p with
      | error e =>
        simp only [handleImport, ht, hr] at h
        obtain ⟨h1, h2, h3, h4⟩ := ih _ s' (fun x hx => hm x (by simp [hx])) h
        simp only at h1 h2 h3 h4
        refine ⟨fun q => ?_, fun m => ?_, h3, h4⟩
        · rw [h1, via_cons]
          constructor
          · rintro (h | h)
            · exact .inl h
            · exact .inr (.inr h)
          · rintro (h | ⟨p', c, hp, hc, _⟩ | h)
            · exact .inl h
            · rw [ht] at hp; injection hp with hp; subst hp; rw [hr] at hc; cases hc
            · exact .inr h
        · rw [h2, via_cons]
          constructor
          · rintro (h | ⟨il', hil', h⟩ | h)
            · rcases List.mem_append.1 h with h | h
              · exact .inl h
              · exact .inr (.inl ⟨il, by simp, p, e, ht, hr, by simpa using h⟩)
            · exact .inr (.inl ⟨il', by simp [hil'], h⟩)
            · exact .inr (.inr (.inr h))
          · rintro (h | ⟨il', hil', q, e', hq, he, hme⟩ | ⟨p', c, hp, hc, _⟩ | h)
            · exact .inl (by simp [h])
            · rcases List.mem_cons.1 hil' with h | h
              · subst h
                rw [ht] at hq; injection hq with hq; subst hq
                rw [hr] at he; injection he with he; subst he
                exact .inl (by simp [hme])
              · exact .inr (.inl ⟨il', h, q, e', hq, he, hme⟩)
            · rw [ht] at hp; injection hp with hp; subst hp; rw [hr] at hc; cases hc
            · exact .inr (.inr h)
      | ok c =>
        simp only [handleImport, ht, hr] at h
        cases hvis : visit p c s with
        | none => simp [hvis] at h
        | some r =>
          cases r with
          | panic => simp [hvis] at h
          | done s1 =>
            simp only [hvis] at h
            have V := hv p c s s1 hvis
            obtain ⟨h1, h2, h3, h4⟩ := ih _ s' (fun x hx => hm x (by simp [hx])) h
            simp only at h1 h2 h3 h4
            refine ⟨fun q => ?_, fun m => ?_, fun q c' loc hq => ?_, fun hn => ?_⟩
            · rw [h1, via_cons, AMap.mem_keys_insert, V.keys]
              constructor
              · rintro ((h | h) | h)
                · exact .inr (.inl ⟨p, c, ht, hr, .inl h⟩)
                · rcases h with h | h
                  · exact .inl h
                  · exact .inr (.inl ⟨p, c, ht, hr, .inr h⟩)
                · exact .inr (.inr h)
              · rintro (h | ⟨p', c', hp, hc, h⟩ | h)
                · exact .inl (.inr (.inl h))
                · rw [ht] at hp; injection hp with hp; subst hp
                  rw [hr] at hc; injection hc with hc; subst hc
                  rcases h with h | h
                  · exact .inl (.inl h)
                  · exact .inl (.inr (.inr h))
                · exact .inr h
            · rw [h2, via_cons, V.msgs]
              constructor
              · rintro ((h | h) | ⟨il', hil', h⟩ | h)
                · exact .inl h
                · exact .inr (.inr (.inl ⟨p, c, ht, hr, h⟩))
                · exact .inr (.inl ⟨il', by simp [hil'], h⟩)
                · exact .inr (.inr (.inr h))
              · rintro (h | ⟨il', hil', q, e', hq, he, hme⟩ | ⟨p', c', hp, hc, h⟩ | h)
                · exact .inl (.inl h)
                · rcases List.mem_cons.1 hil' with h | h
                  · subst h
                    rw [ht] at hq; injection hq with hq; subst hq
                    rw [hr] at he; cases he
                  · exact .inr (.inl ⟨il', h, q, e', hq, he, hme⟩)
                · rw [ht] at hp; injection hp with hp; subst hp
                  rw [hr] at hc; injection hc with hc; subst hc
                  exact .inl (.inr h)
                · exact .inr (.inr h)
            · rcases h3 q c' loc hq with h | h
              · rcases mem_insert_cases h with h | h
                · rcases V.entries q c' loc h with h | ⟨hrq, importer, ic, il', hi, hI, hloc⟩
                  · exact .inl h
                  · refine .inr ⟨hrq, importer, ic, il', .inr ?_, hI, hloc⟩
                    rcases hi with ⟨e1, e2⟩ | ⟨e1, e2⟩
                    · subst e1; subst e2
                      exact ⟨.direct ⟨hil, ht⟩ hr, hr⟩
                    · exact ⟨.trans ⟨hil, ht⟩ hr e1, e2⟩
                · simp only [Prod.mk.injEq] at h
                  obtain ⟨rfl, rfl, rfl⟩ := h
                  exact .inr ⟨hr, file, contents, il, .inl ⟨rfl, rfl⟩, ⟨hil, ht⟩, rfl⟩
              · exact .inr h
            · exact h4 (AMap.nodup_keys_insert _ _ _ (V.nodup hn))

theorem addImported_visited : ∀ (fuel : Nat) (file : Path) (contents : String) (s s' : ImportSt),
    addImported w cfg fuel file contents s = some (.done s') → Visited w cfg file contents s s'
  | 0, _, _, _, _, h => by simp [addImported] at h
  | n + 1, file, contents, s, s', h => by
    rw [imports_are_the_leading_block] at h
    obtain ⟨h1, h2, h3, h4⟩ := handleAll_visited w cfg
      (fun p c s s' => addImported_visited n p c s s') file contents _ s s' (fun _ h => h) h
    exact ⟨fun q => by rw [h1, loads_iff], fun m => by rw [h2, importErr_iff], h3, h4⟩

/-- C35: when scanning ends, the files loaded are exactly the readable files reachable through import
lines, each once and with its own contents; and the messages are exactly the located read errors of the
unreadable imports met on the way. -/
theorem C35_import_closure (fuel : Nat) (file : Path) (contents : String) (st : ImportSt)
    (h : addImported w cfg fuel file contents ⟨[], []⟩ = some (.done st)) :
    (∀ q, (∃ c loc, (q, (c, loc)) ∈ st.imports) ↔ Loads w cfg file contents q) ∧
    (∀ q c loc, (q, (c, loc)) ∈ st.imports → w.read q = .ok c) ∧
    (AMap.keys st.imports).Nodup ∧
    (∀ m, m ∈ st.messages ↔ ImportErr w cfg file contents m) := by
  have V := addImported_visited w cfg fuel file contents _ st h
  refine ⟨fun q => ?_, fun q c loc hq => ?_, V.nodup (by simp [AMap.keys]), fun m => ?_⟩
  · have := V.keys q
    simp only [AMap.keys, List.map_nil, List.not_mem_nil, false_or, List.mem_map] at this
    rw [← this]
    constructor
    · rintro ⟨c, loc, h⟩; exact ⟨_, h, rfl⟩
    · rintro ⟨⟨q', c, loc⟩, h, rfl⟩; exact ⟨c, loc, h⟩
  · rcases V.entries q c loc hq with h | h
    · simp at h
    · exact h.1
  · have := V.msgs m
    simpa using this

/-! C36 -/

theorem handleAll_mono {step step' : ImportLine → ImportSt → Option (PanicOr ImportSt)}
    (hs : ∀ il s r, step il s = some r → step' il s = some r) :
    ∀ ils s r, handleAll step ils s = some r → handleAll step' ils s = some r
  | [], s, r, h => h
  | il :: ils, s, r, h => by
    simp only [handleAll] at h ⊢
    cases h1 : step il s with
    | none => simp [h1] at h
    | some x =>
      rw [hs _ _ _ h1]
      rw [h1] at h
      cases x with
      | panic => exact h
      | done s' => exact handleAll_mono hs ils s' r h

theorem handleImport_mono {read target} {file : Path}
    {v v' : Path → String → ImportSt → Option (PanicOr ImportSt)}
    (hv : ∀ p c s r, v p c s = some r → v' p c s = some r) (il : ImportLine) (s : ImportSt)
    (r : PanicOr ImportSt) (h : handleImport read target file v il s = some r) :
    handleImport read target file v' il s = some r := by
  unfold handleImport at h ⊢
  cases ht : target il.after with
  | none => simpa [ht] using h
  | some q =>
    simp only [ht] at h ⊢
    cases hr : read q with
    | error e => simpa [hr] using h
    | ok c =>
      simp only [hr] at h ⊢
      cases hvv : v q c s with
      | none => simp [hvv] at h
      | some x => rw [hv _ _ _ _ hvv]; rw [hvv] at h; exact h

theorem addImported_mono : ∀ (n : Nat) (file : Path) (contents : String) (s : ImportSt)
    (r : PanicOr ImportSt), addImported w cfg n file contents s = some r →
      addImported w cfg (n + 1) file contents s = some r
  | 0, _, _, _, _, h => by simp [addImported] at h
  | n + 1, file, contents, s, r, h => by
    rw [imports_are_the_leading_block] at h ⊢
    exact handleAll_mono (handleImport_mono (addImported_mono n)) _ s r h

theorem addImported_mono_le {n m : Nat} (hnm : n ≤ m) (file : Path) (contents : String)
    (s : ImportSt) (r : PanicOr ImportSt) (h : addImported w cfg n file contents s = some r) :
    addImported w cfg m file contents s = some r := by
  induction hnm with
  | refl => exact h
  | step _ ih => exact addImported_mono w cfg _ _ _ _ _ ih

/-- More fuel never changes the outcome of a scan. -/
theorem C36_outcome_unique (n m : Nat) (file : Path) (contents : String) (s : ImportSt)
    (r r' : PanicOr ImportSt) (h : addImported w cfg n file contents s = some r)
    (h' : addImported w cfg m file contents s = some r') : r = r' := by
  have h1 := addImported_mono_le w cfg (Nat.le_max_left n m) _ _ _ _ h
  have h2 := addImported_mono_le w cfg (Nat.le_max_right n m) _ _ _ _ h'
  rw [h1] at h2
  exact Option.some.inj h2

theorem handleAll_terminates (file : Path) :
    ∀ (ils : List ImportLine) (s : ImportSt),
      (∀ il ∈ ils, ∀ p c, getFilePathOfFragment cfg il.after file.pop = some p → w.read p = .ok c →
        ∀ s, ∃ n r, addImported w cfg n p c s = some r) →
      ∃ n r, handleAll (handleImport w.read (fun a => getFilePathOfFragment cfg a file.pop) file
        (addImported w cfg n)) ils s = some r
  | [], s, _ => ⟨0, _, rfl⟩
  | il :: ils, s, h => by
    have ih := fun s => handleAll_terminates file ils s (fun x hx => h x (by simp [hx]))
    have hstep : ∃ n r, handleImport w.read (fun a => getFilePathOfFragment cfg a file.pop) file
        (addImported w cfg n) il s = some r := by
      cases ht : getFilePathOfFragment cfg il.after file.pop with
      | none => exact ⟨0, .panic, by simp [handleImport, ht]⟩
      | some p =>
        cases hr : w.read p with
        | error e =>
          refine ⟨0, ?_⟩
          simp only [handleImport, ht, hr]
          exact ⟨_, rfl⟩
        | ok c =>
          obtain ⟨n, r, hnr⟩ := h il (by simp) p c ht hr s
          refine ⟨n, ?_⟩
          simp only [handleImport, ht, hr, hnr]
          cases r with
          | panic => exact ⟨_, rfl⟩
          | done s' => exact ⟨_, rfl⟩
    obtain ⟨n, r, hn⟩ := hstep
    cases r with
    | panic => exact ⟨n, .panic, by simp [handleAll, hn]⟩
    | done s' =>
      obtain ⟨m, r', hm⟩ := ih s'
      refine ⟨max n m, r', ?_⟩
      simp only [handleAll]
      rw [handleImport_mono (fun p c s r => addImported_mono_le w cfg (Nat.le_max_left n m) p c s r)
        il s _ hn]
      exact handleAll_mono (handleImport_mono
        (fun p c s r => addImported_mono_le w cfg (Nat.le_max_right n m) p c s r)) ils s' r' hm

/-- C36: scanning ends if there is no infinite chain of readable imports. -/
theorem C36_terminates (file : Path) (contents : String)
    (h : Acc (ImportEdge w cfg) (file, contents)) (s : ImportSt) :
    ∃ fuel r, addImported w cfg fuel file contents s = some r := by
  generalize hx : (file, contents) = x at h
  induction h generalizing file contents s with
  | intro x _ ih =>
    subst hx
    obtain ⟨n, r, h⟩ := handleAll_terminates w cfg file (importsOf contents) s
      (fun il hil p c ht hr s => ih (p, c) ⟨il, ⟨hil, ht⟩, hr⟩ p c s rfl)
    exact ⟨n + 1, r, by rw [imports_are_the_leading_block]; exact h⟩

theorem handleAll_done {step : ImportLine → ImportSt → Option (PanicOr ImportSt)} :
    ∀ (ils : List ImportLine) (s s' : ImportSt), handleAll step ils s = some (.done s') →
      ∀ il ∈ ils, ∃ t t', step il t = some (.done t')
  | [], _, _, _, _, h => by simp at h
  | i :: ils, s, s', h, il, hil => by
    simp only [handleAll] at h
    cases h1 : step i s with
    | none => simp [h1] at h
    | some x =>
      cases x with
      | panic => simp [h1] at h
      | done t =>
        simp only [h1] at h
        rcases List.mem_cons.1 hil with e | e
        · subst e; exact ⟨s, t, h1⟩
        · exact handleAll_done ils t s' h il e

theorem handleAll_panic {step : ImportLine → ImportSt → Option (PanicOr ImportSt)} :
    ∀ (ils : List ImportLine) (s : ImportSt), handleAll step ils s = some .panic →
      ∃ il ∈ ils, ∃ t, step il t = some .panic
  | [], _, h => by simp [handleAll] at h
  | i :: ils, s, h => by
    simp only [handleAll] at h
    cases h1 : step i s with
    | none => simp [h1] at h
    | some x =>
      cases x with
      | panic => exact ⟨i, by simp, s, h1⟩
      | done t =>
        simp only [h1] at h
        obtain ⟨il, hil, ht⟩ := handleAll_panic ils t h
        exact ⟨il, by simp [hil], ht⟩

theorem done_acc : ∀ (n : Nat) (file : Path) (contents : String) (s s' : ImportSt),
    addImported w cfg n file contents s = some (.done s') →
      Acc (ImportEdge w cfg) (file, contents) ∧ ¬ Broken w cfg file contents
  | 0, _, _, _, _, h => by simp [addImported] at h
  | n + 1, file, contents, s, s', h => by
    rw [imports_are_the_leading_block] at h
    have hd := handleAll_done _ s s' h
    have hrec : ∀ il ∈ importsOf contents, ∀ p c, getFilePathOfFragment cfg il.after file.pop = some p →
        w.read p = .ok c → Acc (ImportEdge w cfg) (p, c) ∧ ¬ Broken w cfg p c := by
      intro il hil p c ht hr
      obtain ⟨t, t', hs⟩ := hd il hil
      simp only [handleImport, ht, hr] at hs
      cases hv : addImported w cfg n p c t with
      | none => simp [hv] at hs
      | some x =>
        cases x with
        | panic => simp [hv] at hs
        | done t1 => exact done_acc n p c t t1 hv
    constructor
    · constructor
      rintro ⟨p, c⟩ ⟨il, ⟨hil, ht⟩, hr⟩
      exact (hrec il hil p c ht hr).1
    · intro hb
      cases hb with
      | here hil hq =>
        obtain ⟨t, t', hs⟩ := hd _ hil
        rw [← C37_panics_iff_unterminated cfg _ file.pop] at hq
        simp [handleImport, hq] at hs
      | there hi hr hb => exact (hrec _ hi.1 _ _ hi.2 hr).2 hb

/-- C37: scanning crashes only if the file or a file it loads has an unterminated import line. -/
theorem C37_crash_needs_unterminated_import : ∀ (n : Nat) (file : Path) (contents : String)
    (s : ImportSt), addImported w cfg n file contents s = some .panic → Broken w cfg file contents
  | 0, _, _, _, h => by simp [addImported] at h
  | n + 1, file, contents, s, h => by
    rw [imports_are_the_leading_block] at h
    obtain ⟨il, hil, t, hs⟩ := handleAll_panic _ s h
    cases ht : getFilePathOfFragment cfg il.after file.pop with
    | none => exact .here hil ((C37_panics_iff_unterminated _ _ _).1 ht)
    | some p =>
      cases hr : w.read p with
      | error e => simp [handleImport, ht, hr] at hs
      | ok c =>
        simp only [handleImport, ht, hr] at hs
        cases hv : addImported w cfg n p c t with
        | none => simp [hv] at hs
        | some x =>
          cases x with
          | panic => exact .there ⟨hil, ht⟩ hr (C37_crash_needs_unterminated_import n p c t hv)
          | done t1 => simp [hv] at hs

/-- C36, exactly: scanning returns normally iff there is no infinite chain of readable imports and no
unterminated import line among the file and what it loads. -/
theorem C36_returns_iff (file : Path) (contents : String) (s : ImportSt) :
    (∃ fuel st, addImported w cfg fuel file contents s = some (.done st)) ↔
      Acc (ImportEdge w cfg) (file, contents) ∧ ¬ Broken w cfg file contents := by
  constructor
  · rintro ⟨n, st, h⟩; exact done_acc w cfg n file contents s st h
  · rintro ⟨ha, hb⟩
    obtain ⟨n, r, h⟩ := C36_terminates w cfg file contents ha s
    cases r with
    | panic => exact absurd (C37_crash_needs_unterminated_import w cfg n file contents s h) hb
    | done st => exact ⟨n, st, h⟩

/-- **C37.** If the chains of imports are finite, scanning the imports of a file crashes exactly if some file
that is reached has an import line whose path is not ended by a quote. -/
theorem C37_crashes_iff (file : Path) (contents : String) (s : ImportSt)
    (ha : Acc (ImportEdge w cfg) (file, contents)) :
    (∃ fuel, addImported w cfg fuel file contents s = some .panic) ↔ Broken w cfg file contents := by
  constructor
  · rintro ⟨n, h⟩; exact C37_crash_needs_unterminated_import w cfg n file contents s h
  · intro hb
    obtain ⟨n, r, h⟩ := C36_terminates w cfg file contents ha s
    cases r with
    | panic => exact ⟨n, h⟩
    | done st => exact absurd hb ((C36_returns_iff w cfg file contents s).1 ⟨n, st, h⟩).2

theorem acc_irrefl {α : Type} {r : α → α → Prop} {a : α} (h : Acc r a) : ¬ r a a := by
  induction h with
  | intro x _ ih => exact fun hx => ih x hx hx

/-- C36, the bad case: a file that (without unterminated import lines on the way) leads back to itself
is scanned forever: no amount of fuel gives a result. -/
theorem C36_cycle_never_returns (file : Path) (contents : String) (s : ImportSt)
    (hcyc : Loads w cfg file contents file) (hread : w.read file = .ok contents)
    (hb : ¬ Broken w cfg file contents) (fuel : Nat) :
    addImported w cfg fuel file contents s = none := by
  cases h : addImported w cfg fuel file contents s with
  | none => rfl
  | some r =>
    exfalso
    cases r with
    | panic => exact hb (C37_crash_needs_unterminated_import w cfg fuel file contents s h)
    | done st =>
      have hacc := (done_acc w cfg fuel file contents s st h).1
      have hT : Relation.TransGen (ImportEdge w cfg) (file, contents) (file, contents) := by
        have key : ∀ f c q, Loads w cfg f c q → ∀ cq, w.read q = .ok cq →
            Relation.TransGen (ImportEdge w cfg) (q, cq) (f, c) := by
          intro f c q hl
          induction hl with
          | direct hi hr =>
            intro cq hq
            exact .single ⟨_, hi, hq⟩
          | trans hi hr _ ih =>
            intro cq hq
            exact .tail (ih cq hq) ⟨_, hi, hr⟩
        exact key _ _ _ hcyc _ hread
      exact acc_irrefl hacc.transGen hT
end Scan

/-- A small file system for the examples: `/r/a` imports `/r/b` and the missing `/r/m`, `/r/b` imports
`/r/c`, `/r/s` imports itself, `/r/x` has an unterminated import. -/
def importWorld : World where
  resolve := Path.display
  disk := fun id =>
    if id = "/r/a" then .ok "# header\n#import \"b\"\n#import \"m\"\nquery Q { x }"
    else if id = "/r/b" then .ok "#import \"./c\"\nfragment B on T { x }"
    else if id = "/r/c" then .ok "fragment C on T { x }"
    else if id = "/r/s" then .ok "#import \"s\"\nfragment S on T { x }"
    else if id = "/r/x" then .ok "#import \"foo"
    else .error "No such file or directory (os error 2)"
  writeErr := fun _ => none

/-- The view of a scan's result used by the examples. -/
def scanView : Option (PanicOr ImportSt) → Option (Option (List Path × List String))
  | none => none
  | some .panic => some none
  | some (.done st) => some (some (st.imports.map Prod.fst, st.messages.map Msg.message))

example : scanView (addImported importWorld importCfg 3 ⟨true, ["r", "a"]⟩
    "# header\n#import \"b\"\n#import \"m\"\nquery Q { x }" ⟨[], []⟩) =
    some (some ([⟨true, ["r", "c"]⟩, ⟨true, ["r", "b"]⟩],
      ["could not read `/r/m`: No such file or directory (os error 2)"])) := by decide +kernel
example : scanView (addImported importWorld importCfg 3 ⟨true, ["r", "x"]⟩ "#import \"foo"
    ⟨[], []⟩) = some none := by decide +kernel

/-- The self-importing file meets the hypotheses of `C36_cycle_never_returns`. -/
theorem C36_cycle_witness (fuel : Nat) (s : ImportSt) :
    addImported importWorld importCfg fuel ⟨true, ["r", "s"]⟩
      "#import \"s\"\nfragment S on T { x }" s = none := by
  have hI : importsOf "#import \"s\"\nfragment S on T { x }" =
      [⟨1, "#import \"s\"".toList, "s\"".toList⟩] := by
    have : (importsOf "#import \"s\"\nfragment S on T { x }").map
        (fun l => (l.number, l.line, l.after)) =
      [(1, "#import \"s\"".toList, "s\"".toList)] := by decide +kernel
    cases h : importsOf "#import \"s\"\nfragment S on T { x }" with
    | nil => rw [h] at this; simp at this
    | cons a r =>
      rw [h] at this
      cases r with
      | nil =>
        simp only [List.map_cons, List.map_nil, List.cons.injEq, Prod.mk.injEq, and_true] at this
        obtain ⟨n, l, f⟩ := a
        obtain ⟨h1, h2, h3⟩ := this
        simp only at h1 h2 h3
        rw [h1, h2, h3]
      | cons b r => simp at this
  have hr : importWorld.read ⟨true, ["r", "s"]⟩ = .ok "#import \"s\"\nfragment S on T { x }" := by
    decide +kernel
  have hi : Imports importCfg ⟨true, ["r", "s"]⟩ "#import \"s\"\nfragment S on T { x }"
      ⟨1, "#import \"s\"".toList, "s\"".toList⟩ ⟨true, ["r", "s"]⟩ :=
    ⟨by rw [hI]; simp, by decide +kernel⟩
  refine C36_cycle_never_returns _ _ _ _ s (.direct hi hr) hr ?_ fuel
  intro hb
  have key : ∀ f c, Broken importWorld importCfg f c → f = ⟨true, ["r", "s"]⟩ →
      c = "#import \"s\"\nfragment S on T { x }" → False := by
    intro f c h
    induction h with
    | here hil hq =>
      intro _ hc
      subst hc
      rw [hI] at hil
      simp only [List.mem_singleton] at hil
      subst hil
      exact absurd hq (by decide +kernel)
    | there hI' hr' _ ih =>
      intro hf hc
      subst hf; subst hc
      have hil := hI'.1
      rw [hI] at hil
      simp only [List.mem_singleton] at hil
      subst hil
      have ht := hI'.2
      rw [hi.2] at ht
      injection ht with ht
      subst ht
      rw [hr] at hr'
      injection hr' with hr'
      exact ih rfl hr'.symm
  exact key _ _ hb rfl rfl

/-! ### C38, C39: fragments in scope -/

/-- An imported file: path, contents, import line. -/
abbrev ImportedFile := Path × (String × Location)

/-- The file parses to a single definition `d`. -/
def DefinesOnly (ext : Ext) (e : ImportedFile) (d : Definition) : Prop :=
  ext.parse e.2.1 = .ok [d]

/-- The error for importing a document that is not a fragment. -/
def notAFragment (path : Path) (loc : Location) : Msg :=
  ⟨.compileError, some ⟨path, some { loc with
    helpText := some "This document is not a fragment, and importing it is probably a mistake." }⟩,
    "cannot import non-fragment GraphQL document `" ++ path.display ++ "`"⟩

/-- The definition is a fragment. -/
def Definition.isFragment : Definition → Bool
  | .fragment _ => true
  | _ => false

theorem parse_ok (ext : Ext) (c : String) (p : Path) (d : Definition) :
    parseGraphqlFile ext c p = .ok d ↔ ext.parse c = .ok [d] := by
  unfold parseGraphqlFile
  cases h : ext.parse c with
  | error e => simp
  | ok l =>
    cases l with
    | nil => simp
    | cons a l =>
      cases l with
      | nil => simp
      | cons b l => simp

theorem foreignLoop_msgs (ext : Ext) (path : Path) :
    ∀ (l : List ImportedFile) (frags : AMap String FragmentDef) (msgs : List Msg),
      (foreignLoop ext path l frags msgs).2 = msgs ++ l.filterMap (fun e =>
        match ext.parse e.2.1 with
        | .ok [d] => if d.isFragment then none else some (notAFragment path e.2.2)
        | _ => none)
  | [], frags, msgs => by simp [foreignLoop]
  | (p, c, loc) :: l, frags, msgs => by
    simp only [foreignLoop, List.filterMap_cons]
    cases h : parseGraphqlFile ext c p with
    | error e =>
      have hno : ∀ d, ext.parse c ≠ .ok [d] := by
        intro d hd; rw [(parse_ok ext c p d).2 hd] at h; cases h
      simp only [foreignLoop_msgs ext path l]
    | ok d =>
      rw [(parse_ok ext c p d).1 h]
      cases d with
      | fragment f => simp [foreignLoop_msgs ext path l, Definition.isFragment]
      | selectionSet pos sel =>
        simp [foreignLoop_msgs ext path l, Definition.isFragment, notAFragment, Msg.withSource,
          Msg.simpleCompileError, Location.withHelp]
      | operation kind pos name vars dirs sel =>
        simp [foreignLoop_msgs ext path l, Definition.isFragment, notAFragment, Msg.withSource,
          Msg.simpleCompileError, Location.withHelp]

/-- The fragments a list of files defines, in order. -/
def fragmentsIn (ext : Ext) (l : List ImportedFile) : List FragmentDef :=
  l.filterMap (fun e => match ext.parse e.2.1 with | .ok [.fragment f] => some f | _ => none)

theorem foreignLoop_frags (ext : Ext) (path : Path) :
    ∀ (l : List ImportedFile) (frags : AMap String FragmentDef) (msgs : List Msg),
      (foreignLoop ext path l frags msgs).1 =
        (fragmentsIn ext l).foldl (fun m f => AMap.insert m f.name f) frags
  | [], frags, msgs => by simp [foreignLoop, fragmentsIn]
  | (p, c, loc) :: l, frags, msgs => by
    have ih := foreignLoop_frags ext path l
    unfold fragmentsIn at ih ⊢
    simp only [foreignLoop, List.filterMap_cons]
    cases h : parseGraphqlFile ext c p with
    | error e =>
      have hno : ∀ d, ext.parse c ≠ .ok [d] := by
        intro d hd; rw [(parse_ok ext c p d).2 hd] at h; cases h
      simp only [ih]
      cases hp : ext.parse c with
      | error e => rfl
      | ok ds =>
        cases ds with
        | nil => rfl
        | cons a ds =>
          cases ds with
          | nil => exact absurd hp (hno a)
          | cons b ds => cases a <;> rfl
    | ok d =>
      rw [(parse_ok ext c p d).1 h]
      cases d with
      | fragment f => simp [ih]
      | selectionSet pos sel => simp [ih]
      | operation kind pos name vars dirs sel => simp [ih]

theorem get?_foldl_insert (l : List FragmentDef) (m : AMap String FragmentDef) (n : String) :
    AMap.get? (l.foldl (fun m f => AMap.insert m f.name f) m) n =
      (match (l.filter (fun f => decide (f.name = n))).getLast? with
        | some f => some f
        | none => AMap.get? m n) := by
  induction l generalizing m with
  | nil => rfl
  | cons f l ih =>
    rw [List.foldl_cons, ih, List.filter_cons]
    by_cases h : f.name = n
    · simp only [h, decide_true, if_true]
      cases hl : l.filter (fun f => decide (f.name = n)) with
      | nil => simp [AMap.get?_insert]
      | cons a r =>
        rw [List.getLast?_cons_cons]
        cases hl' : (a :: r).getLast? with
        | none => simp at hl'
        | some x => rfl
    · simp only [h, decide_false, Bool.false_eq_true, if_false]
      split
      · rfl
      · rw [AMap.get?_insert, if_neg h]

/-- C39: what importing does.  Every name in scope is the name of a fragment that is the only
definition of some imported file; every such name is in scope; and there is one error, naming the
compiled file, for each imported file whose only definition is not a fragment.  Imported files that do
not parse, or have several definitions, add nothing. -/
theorem C39_scope_and_errors (ω : Hash) (ext : Ext) (path : Path)
    (imports : List ImportedFile) (msgs : List Msg) :
    (∀ n f, AMap.get? (parseForeignFragments ω ext path imports msgs).1 n = some f →
      f.name = n ∧ ∃ e ∈ imports, DefinesOnly ext e (.fragment f)) ∧
    (∀ e ∈ imports, ∀ f, DefinesOnly ext e (.fragment f) →
      ∃ f', AMap.get? (parseForeignFragments ω ext path imports msgs).1 f.name = some f') ∧
    (∀ m, m ∈ (parseForeignFragments ω ext path imports msgs).2 ↔ m ∈ msgs ∨
      ∃ e ∈ imports, ∃ d, DefinesOnly ext e d ∧ d.isFragment = false ∧
        m = notAFragment path e.2.2) := by
  unfold parseForeignFragments
  have hmem : ∀ f, f ∈ fragmentsIn ext (ω.perm ["graphql.rs:175"] imports) ↔
      ∃ e ∈ imports, DefinesOnly ext e (.fragment f) := by
    intro f
    unfold fragmentsIn DefinesOnly
    rw [List.mem_filterMap]
    constructor
    · rintro ⟨e, he, hf⟩
      refine ⟨e, (ω.isPerm _ _).mem_iff.1 he, ?_⟩
      split at hf
      · rename_i f' hp; injection hf with hf; subst hf; exact hp
      · cases hf
    · rintro ⟨e, he, hf⟩
      exact ⟨e, (ω.isPerm _ _).mem_iff.2 he, by simp [hf]⟩
  refine ⟨fun n f h => ?_, fun e he f hf => ?_, fun m => ?_⟩
  · rw [foreignLoop_frags, get?_foldl_insert] at h
    split at h
    · rename_i f' hl
      injection h with h
      subst h
      have := List.mem_filter.1 (List.mem_of_getLast? hl)
      exact ⟨by simpa using this.2, (hmem f').1 this.1⟩
    · simp [AMap.get?] at h
  · rw [foreignLoop_frags, get?_foldl_insert]
    have : f ∈ (fragmentsIn ext (ω.perm ["graphql.rs:175"] imports)).filter
        (fun f' => decide (f'.name = f.name)) := by
      rw [List.mem_filter]
      exact ⟨(hmem f).2 ⟨e, he, hf⟩, by simp⟩
    split
    · exact ⟨_, rfl⟩
    · rename_i hn
      rw [List.getLast?_eq_none_iff] at hn
      rw [hn] at this
      simp at this
  · rw [foreignLoop_msgs, List.mem_append, List.mem_filterMap]
    constructor
    · rintro (h | ⟨e, he, hm⟩)
      · exact .inl h
      · refine .inr ⟨e, (ω.isPerm _ _).mem_iff.1 he, ?_⟩
        split at hm
        · rename_i d hp
          split at hm
          · cases hm
          · rename_i hfr
            injection hm with hm
            exact ⟨d, hp, by simpa using hfr, hm.symm⟩
        · cases hm
    · rintro (h | ⟨e, he, d, hd, hfr, hm⟩)
      · exact .inl h
      · refine .inr ⟨e, (ω.isPerm _ _).mem_iff.2 he, ?_⟩
        unfold DefinesOnly at hd
        simp [hd, hfr, hm]

/-- No two imported files define different fragments of one name. -/
def UniqueFragmentNames (ext : Ext) (imports : List ImportedFile) : Prop :=
  ∀ e ∈ imports, ∀ e' ∈ imports, ∀ f f', DefinesOnly ext e (.fragment f) →
    DefinesOnly ext e' (.fragment f') → f.name = f'.name → f = f'

/-- C38: with unique fragment names, every name means the same fragment whatever the hash iteration
order, and the messages are the same up to order. -/
theorem C38_scope_independent_of_hash_order (ω ω' : Hash) (ext : Ext) (path : Path)
    (imports : List ImportedFile) (msgs : List Msg) (hu : UniqueFragmentNames ext imports) :
    (∀ n, AMap.get? (parseForeignFragments ω ext path imports msgs).1 n =
      AMap.get? (parseForeignFragments ω' ext path imports msgs).1 n) ∧
    (parseForeignFragments ω ext path imports msgs).2.Perm
      (parseForeignFragments ω' ext path imports msgs).2 := by
  have half : ∀ (ω ω' : Hash) n f,
      AMap.get? (parseForeignFragments ω ext path imports msgs).1 n = some f →
      AMap.get? (parseForeignFragments ω' ext path imports msgs).1 n = some f := by
    intro ω ω' n f h
    obtain ⟨hn, e, he, hf⟩ := (C39_scope_and_errors ω ext path imports msgs).1 n f h
    obtain ⟨f', hf'⟩ := (C39_scope_and_errors ω' ext path imports msgs).2.1 e he f hf
    rw [hn] at hf'
    obtain ⟨hn', e', he', hfe'⟩ := (C39_scope_and_errors ω' ext path imports msgs).1 n f' hf'
    rw [hf', hu e he e' he' f f' hf hfe' (by rw [hn, hn'])]
  constructor
  · intro n
    cases h : AMap.get? (parseForeignFragments ω ext path imports msgs).1 n with
    | some f => exact (half ω ω' n f h).symm
    | none =>
      cases h' : AMap.get? (parseForeignFragments ω' ext path imports msgs).1 n with
      | none => rfl
      | some f => rw [half ω' ω n f h'] at h; cases h
  · unfold parseForeignFragments
    rw [foreignLoop_msgs, foreignLoop_msgs]
    exact List.Perm.append_left _ (((ω.isPerm _ _).trans (ω'.isPerm _ _).symm).filterMap _)

/-- A parser for the examples: the contents `F1`, `F2` are two fragments named `F`, `Q` is a query. -/
def scopeExt : Ext where
  parse := fun c =>
    if c = "F1" then .ok [.fragment ⟨⟨1, 1⟩, "F", "A", [], []⟩]
    else if c = "F2" then .ok [.fragment ⟨⟨1, 1⟩, "F", "B", [], []⟩]
    else if c = "Q" then .ok [.selectionSet ⟨1, 1⟩ []]
    else .error "syntax error"
  dist := fun _ _ => 0

/-- An import line location for the examples. -/
def scopeLoc : Location := ⟨"1", "#import \"x\"", none, some 9⟩

example : UniqueFragmentNames scopeExt
    [(⟨true, ["f"]⟩, ("F1", scopeLoc)), (⟨true, ["q"]⟩, ("Q", scopeLoc)),
      (⟨true, ["j"]⟩, ("junk", scopeLoc))] := by
  intro e he e' he' f f' hf hf' _
  simp only [List.mem_cons, List.not_mem_nil, or_false] at he he'
  unfold DefinesOnly at hf hf'
  rcases he with rfl | rfl | rfl
  · rcases he' with rfl | rfl | rfl
    · rw [hf] at hf'; simpa using hf'
    · simp [scopeExt] at hf'
    · simp [scopeExt] at hf'
  · simp [scopeExt] at hf
  · simp [scopeExt] at hf

/-- C38, without unique names: which definition of `F` is in scope depends on the hash order. -/
theorem C38_duplicate_witness :
    (AMap.get? (parseForeignFragments .inOrder scopeExt ⟨true, ["p"]⟩
      [(⟨true, ["f"]⟩, ("F1", scopeLoc)), (⟨true, ["g"]⟩, ("F2", scopeLoc))] []).1 "F").map
        FragmentDef.typeCond = some "B" ∧
    (AMap.get? (parseForeignFragments .reversed scopeExt ⟨true, ["p"]⟩
      [(⟨true, ["f"]⟩, ("F1", scopeLoc)), (⟨true, ["g"]⟩, ("F2", scopeLoc))] []).1 "F").map
        FragmentDef.typeCond = some "A" := by decide +kernel

example : ((parseForeignFragments .inOrder scopeExt ⟨true, ["p"]⟩
      [(⟨true, ["f"]⟩, ("F1", scopeLoc)), (⟨true, ["q"]⟩, ("Q", scopeLoc)),
        (⟨true, ["j"]⟩, ("junk", scopeLoc))] []).2.map Msg.message) =
    ["cannot import non-fragment GraphQL document `/p`"] := by decide +kernel

/-! ### C61: where the non-fragment error points -/

/-- C61: the location shown for an imported non-fragment document is an import line that names it, of
the compiled file or of a file it loads.  The message always names the compiled file, so the quoted line
is a line of the file named whenever no loaded file imports that document. -/
theorem C61_non_fragment_location (w : World) (cfg : CompileConfig) (fuel : Nat) (file : Path)
    (contents : String) (st : ImportSt)
    (h : addImported w cfg fuel file contents ⟨[], []⟩ = some (.done st))
    (q : Path) (c : String) (loc : Location) (hq : (q, (c, loc)) ∈ st.imports) :
    (∃ importer ic il, ((importer = file ∧ ic = contents) ∨
      (Loads w cfg file contents importer ∧ w.read importer = .ok ic)) ∧
      Imports cfg importer ic il q ∧ loc = il.loc) ∧
    ((∀ p cp il, Loads w cfg file contents p → w.read p = .ok cp → ¬ Imports cfg p cp il q) →
      ∃ il ∈ importsOf contents, loc = il.loc) := by
  have V := addImported_visited w cfg fuel file contents _ st h
  rcases V.entries q c loc hq with h | ⟨_, importer, ic, il, hi, hI, hl⟩
  · simp at h
  · refine ⟨⟨importer, ic, il, hi, hI, hl⟩, fun hno => ?_⟩
    rcases hi with ⟨rfl, rfl⟩ | ⟨h1, h2⟩
    · exact ⟨il, hI.1, hl⟩
    · exact absurd hI (hno importer ic il h1 h2)

end Qlc
