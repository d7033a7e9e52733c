import Verif.Spec.Docs
import Verif.Model.Typescript
import Mathlib.Tactic.Tauto
/-
Properties C25 and C26: doc comments.
-/
set_option autoImplicit false

namespace Qlc
open Spec

theorem remove2_split (a b c : Char) (ha : c ≠ a) (hb : c ≠ b) : ∀ (x y : List Char),
    remove2 a b (x ++ c :: y) = remove2 a b x ++ c :: remove2 a b y
  | [], [] => by simp [remove2]
  | [], d :: y => by
    show remove2 a b (c :: d :: y) = c :: remove2 a b (d :: y)
    rw [remove2, if_neg (fun h => ha h.1)]
  | [e], y => by
    have ih := remove2_split a b c ha hb [] y
    show remove2 a b (e :: c :: y) = e :: c :: remove2 a b y
    rw [List.nil_append] at ih
    rw [remove2, if_neg (fun h => hb h.2), ih]
    simp [remove2]
  | e :: f :: x, y => by
    show remove2 a b (e :: f :: (x ++ c :: y)) = remove2 a b (e :: f :: x) ++ c :: remove2 a b y
    rw [remove2, remove2]
    have ih1 := remove2_split a b c ha hb x y
    have ih2 := remove2_split a b c ha hb (f :: x) y
    split
    · exact ih1
    · rw [List.cons_append] at ih2
      rw [ih2, List.cons_append]

theorem remove2_replicate (a b : Char) (ha : ' ' ≠ a) (hb : ' ' ≠ b) (n : Nat) (y : List Char) :
    remove2 a b (List.replicate n ' ' ++ y) = List.replicate n ' ' ++ remove2 a b y := by
  induction n with
  | zero => rfl
  | succ n ih =>
    have := remove2_split a b ' ' ha hb [] (List.replicate n ' ' ++ y)
    rw [List.nil_append] at this
    rw [List.replicate_succ, List.cons_append, this, ih]
    rfl

theorem remove2_sep (a b : Char) (n : Nat) (h1 : '\n' ≠ a) (h2 : '\n' ≠ b) (h3 : ' ' ≠ a) (h4 : ' ' ≠ b)
    (x y : List Char) :
    remove2 a b (x ++ commentLine n y) = remove2 a b x ++ commentLine n (remove2 a b y) := by
  unfold commentLine
  rw [remove2_split a b '\n' h1 h2]
  congr 2
  have e := remove2_split a b ' ' h3 h4 [] (List.replicate n ' ' ++ '*' :: ' ' :: y)
  rw [List.nil_append] at e
  rw [e, remove2_replicate a b h3 h4]
  have e' := remove2_split a b ' ' h3 h4 ['*'] y
  rw [List.cons_append, List.nil_append] at e'
  rw [e']
  simp [remove2]

theorem replaceNl_lines (n : Nat) : ∀ (cs : List Char), ∃ l ls, splitNl cs = l :: ls ∧
    replaceNl ('\n' :: ' ' :: (List.replicate n ' ' ++ ['*', ' '])) cs = l ++ ls.flatMap (commentLine n)
  | [] => ⟨[], [], rfl, rfl⟩
  | c :: cs => by
    obtain ⟨l, ls, h1, h2⟩ := replaceNl_lines n cs
    unfold splitNl replaceNl
    by_cases h : c = '\n'
    · rw [if_pos h, if_pos h, h1, h2]
      refine ⟨[], l :: ls, rfl, ?_⟩
      simp [commentLine]
    · rw [if_neg h, if_neg h, h1, h2]
      exact ⟨c :: l, ls, rfl, rfl⟩

theorem remove2_lines (a b : Char) (n : Nat) (h1 : '\n' ≠ a) (h2 : '\n' ≠ b) (h3 : ' ' ≠ a) (h4 : ' ' ≠ b) :
    ∀ (ls : List (List Char)) (l : List Char),
    remove2 a b (l ++ ls.flatMap (commentLine n)) =
      remove2 a b l ++ (ls.map (remove2 a b)).flatMap (commentLine n)
  | [], l => by simp
  | m :: ls, l => by
    have ih := remove2_lines a b n h1 h2 h3 h4 ls m
    have e : l ++ (m :: ls).flatMap (commentLine n) =
        l ++ commentLine n (m ++ ls.flatMap (commentLine n)) := by
      simp [commentLine]
    rw [e, remove2_sep a b n h1 h2 h3 h4, ih]
    simp [commentLine]

/-- **C26, C25.** The doc comment of a property is the comment whose lines are the lines of the
description without comment brackets, followed by `@deprecated` if and only if the field is deprecated;
there is no comment when there is neither. -/
theorem C26_doc_comment (doc : Option String) (dep : Bool) (indent : Nat) :
    (compileDocumentation doc dep indent).toList =
      comment indent (docLines doc ++ if dep then ["@deprecated".toList] else []) := by
  unfold compileDocumentation
  cases doc with
  | none =>
    cases dep with
    | false => simp [docLines, comment]
    | true =>
      simp [docLines, comment, commentOpen, commentLine, spaces]
  | some d =>
    obtain ⟨l, ls, h1, h2⟩ := replaceNl_lines indent d.toList
    have e : ("\n " ++ spaces indent ++ "* ").toList =
        '\n' :: ' ' :: (List.replicate indent ' ' ++ ['*', ' ']) := by simp [spaces]
    simp only [Option.map_some, e, h2]
    rw [remove2_lines '/' '*' indent (by decide) (by decide) (by decide) (by decide),
      remove2_lines '*' '/' indent (by decide) (by decide) (by decide) (by decide)]
    have hl : docLines (some d) = (l :: ls).map cleanLine := by unfold docLines; rw [← h1]
    rw [hl]
    unfold comment commentOpen
    cases dep with
    | false =>
      simp [commentLine, spaces, cleanLine, Function.comp_def]
      rfl
    | true =>
      simp [commentLine, spaces, cleanLine, Function.comp_def]
      rfl

example : compileDocumentation (some "A user\nof the /*site*/") true 2 =
    "/**\n   * A user\n   * of the site\n   * @deprecated\n   */\n  " := by decide

example : compileDocumentation none false 2 = "" := by decide

/-! ### C25 -/

theorem closes_cons (c : Char) (cs : List Char) :
    Closes (c :: cs) ↔ (c = '*' ∧ cs.head? = some '/') ∨ Closes cs := by
  constructor
  · rintro ⟨pre, post, h⟩
    cases pre with
    | nil =>
      simp only [List.nil_append, List.cons.injEq] at h
      left
      rw [h.1, h.2]
      exact ⟨rfl, rfl⟩
    | cons p pre =>
      simp only [List.cons_append, List.cons.injEq] at h
      exact .inr ⟨pre, post, h.2⟩
  · rintro (⟨rfl, h⟩ | ⟨pre, post, rfl⟩)
    · cases cs with
      | nil => simp at h
      | cons d cs => simp at h; subst h; exact ⟨[], cs, rfl⟩
    · exact ⟨c :: pre, post, rfl⟩

theorem not_closes_nil : ¬ Closes [] := by rintro ⟨pre, post, h⟩; simp at h

/-- A character that is neither `*` nor `/` separates. -/
theorem closes_split (c : Char) (h1 : c ≠ '*') (h2 : c ≠ '/') : ∀ (x y : List Char),
    Closes (x ++ c :: y) ↔ Closes x ∨ Closes y
  | [], y => by
    rw [List.nil_append, closes_cons]
    simp [h1, not_closes_nil]
  | d :: x, y => by
    rw [List.cons_append, closes_cons, closes_cons, closes_split c h1 h2 x y]
    have : (x ++ c :: y).head? = some '/' ↔ x.head? = some '/' := by
      cases x with
      | nil => simp [h2]
      | cons e x => simp
    rw [this]
    tauto

theorem closes_spaces (n : Nat) (y : List Char) : Closes (List.replicate n ' ' ++ y) ↔ Closes y := by
  induction n with
  | zero => rfl
  | succ n ih =>
    rw [List.replicate_succ, List.cons_append, closes_cons, ih]
    simp

theorem closes_line (n : Nat) (x l : List Char) :
    Closes (x ++ commentLine n l) ↔ Closes x ∨ Closes l := by
  unfold commentLine
  rw [closes_split '\n' (by decide) (by decide), closes_cons, closes_spaces]
  have h : Closes ('*' :: ' ' :: l) ↔ Closes l := by
    rw [closes_cons, closes_cons]
    simp
  rw [h]
  simp

theorem closes_lines (n : Nat) : ∀ (ls : List (List Char)) (x : List Char),
    Closes (x ++ ls.flatMap (commentLine n)) ↔ Closes x ∨ ∃ l ∈ ls, Closes l
  | [], x => by simp
  | m :: ls, x => by
    have e : x ++ (m :: ls).flatMap (commentLine n) =
        x ++ commentLine n (m ++ ls.flatMap (commentLine n)) := by
      simp [commentLine]
    rw [e, closes_line, closes_lines n ls m]
    simp

theorem head_remove2 : ∀ (l : List Char), (remove2 '*' '/' l).head? = some '/' ↔
    ∃ k post, l = closers k ++ '/' :: post
  | [] => by
    simp only [remove2, List.head?_nil, reduceCtorEq, false_iff]
    rintro ⟨k, post, h⟩
    cases k <;> simp [closers] at h
  | [c] => by
    simp only [remove2, List.head?_cons, Option.some.injEq]
    constructor
    · rintro rfl; exact ⟨0, [], rfl⟩
    · rintro ⟨k, post, h⟩
      cases k <;> simp [closers] at h
      exact h.1
  | c :: d :: rest => by
    unfold remove2
    split
    · rename_i h
      rw [head_remove2 rest, h.1, h.2]
      constructor
      · rintro ⟨k, post, rfl⟩; exact ⟨k + 1, post, rfl⟩
      · rintro ⟨k, post, h⟩
        cases k with
        | zero => simp [closers] at h
        | succ k =>
          simp only [closers, List.cons_append, List.cons.injEq, true_and] at h
          exact ⟨k, post, h⟩
    · rename_i hne
      simp only [List.head?_cons, Option.some.injEq]
      constructor
      · rintro rfl; exact ⟨0, d :: rest, rfl⟩
      · rintro ⟨k, post, h⟩
        cases k with
        | zero =>
          simp only [closers, List.nil_append, List.cons.injEq] at h
          exact h.1
        | succ k =>
          simp only [closers, List.cons_append, List.cons.injEq] at h
          exact absurd ⟨h.1, h.2.1⟩ hne

theorem closes_remove2 : ∀ (l : List Char), Closes (remove2 '*' '/' l) ↔
    ∃ pre k post, l = pre ++ '*' :: (closers (k + 1) ++ '/' :: post)
  | [] => by
    simp only [remove2]
    constructor
    · exact fun h => absurd h not_closes_nil
    · rintro ⟨pre, k, post, h⟩; simp at h
  | [c] => by
    simp only [remove2]
    rw [closes_cons]
    simp only [List.head?_nil, reduceCtorEq, and_false, not_closes_nil, or_self, false_iff]
    rintro ⟨pre, k, post, h⟩
    cases pre with
    | nil => simp [closers] at h
    | cons p pre => simp at h
  | c :: d :: rest => by
    unfold remove2
    split
    · rename_i hcd
      obtain ⟨rfl, rfl⟩ := hcd
      rw [closes_remove2 rest]
      constructor
      · rintro ⟨pre, k, post, rfl⟩; exact ⟨'*' :: '/' :: pre, k, post, rfl⟩
      · rintro ⟨pre, k, post, h⟩
        match pre, h with
        | [], h => simp [closers] at h
        | [p], h => simp at h
        | p :: q :: pre, h =>
          simp only [List.cons_append, List.cons.injEq] at h
          exact ⟨pre, k, post, h.2.2⟩
    · rename_i hne
      rw [closes_cons, head_remove2, closes_remove2 (d :: rest)]
      constructor
      · rintro (⟨rfl, k, post, h⟩ | ⟨pre, k, post, h⟩)
        · cases k with
          | zero =>
            simp only [closers, List.nil_append, List.cons.injEq] at h
            exact absurd ⟨rfl, h.1⟩ hne
          | succ k => exact ⟨[], k, post, by rw [h]; rfl⟩
        · exact ⟨c :: pre, k, post, by rw [h]; rfl⟩
      · rintro ⟨pre, k, post, h⟩
        cases pre with
        | nil =>
          simp only [List.nil_append, List.cons.injEq] at h
          exact .inl ⟨h.1, k + 1, post, h.2⟩
        | cons p pre =>
          simp only [List.cons_append, List.cons.injEq] at h
          exact .inr ⟨pre, k, post, h.2⟩

/-- **C25.** Every doc comment ends in `*/`, newline and indentation; and an earlier `*/` occurs in it if
and only if some line of the description, with `/*` removed, contains `*`, then `*/` one or more times,
then `/`. -/
theorem C25_comment_closed_early_iff (d : String) (dep : Bool) (indent : Nat) :
    ∃ before, (compileDocumentation (some d) dep indent).toList =
        before ++ '*' :: '/' :: '\n' :: List.replicate indent ' ' ∧
      (Closes (before ++ ['*']) ↔ ∃ line ∈ splitNl d.toList, BreaksOut line) := by
  obtain ⟨l, ls, h1, _⟩ := replaceNl_lines indent d.toList
  refine ⟨commentOpen indent (docLines (some d) ++ if dep then ["@deprecated".toList] else []), ?_, ?_⟩
  · rw [C26_doc_comment]
    unfold comment
    rw [if_neg]
    have hl : docLines (some d) = (l :: ls).map cleanLine := by unfold docLines; rw [← h1]
    rw [hl, List.map_cons, List.cons_append]
    exact List.cons_ne_nil _ _
  · generalize hX : docLines (some d) ++ (if dep then ["@deprecated".toList] else []) = X
    have e : commentOpen indent X ++ ['*'] = (['/', '*', '*'] ++ X.flatMap (commentLine indent)) ++
        '\n' :: (' ' :: (List.replicate indent ' ' ++ ['*'])) := by
      simp [commentOpen]
    have h0 : ¬ Closes ['*'] := by rw [closes_cons]; simp [not_closes_nil]
    have h3 : ¬ Closes ['/', '*', '*'] := by
      rw [closes_cons, closes_cons]; simp [h0]
    rw [e, closes_split '\n' (by decide) (by decide), closes_lines, closes_cons ' ', closes_spaces]
    simp only [h0, h3, false_or, or_false, Char.reduceEq, false_and]
    rw [← hX]
    have hdep : ∀ l ∈ (if dep then ["@deprecated".toList] else []), ¬ Closes l := by
      intro l hl
      cases dep with
      | false => simp at hl
      | true =>
        simp only [if_true, List.mem_singleton] at hl
        subst hl
        have he : "@deprecated".toList = ['@', 'd', 'e', 'p', 'r', 'e', 'c', 'a', 't', 'e', 'd'] := by decide
        rw [he]
        simp only [closes_cons, not_closes_nil]
        simp
    constructor
    · rintro ⟨l, hl, hc⟩
      rcases List.mem_append.1 hl with hl | hl
      · unfold docLines at hl
        obtain ⟨line, hline, rfl⟩ := List.mem_map.1 hl
        exact ⟨line, hline, (closes_remove2 _).1 hc⟩
      · exact absurd hc (hdep l hl)
    · rintro ⟨line, hline, hb⟩
      refine ⟨cleanLine line, List.mem_append.2 (.inl ?_), (closes_remove2 _).2 hb⟩
      exact List.mem_map.2 ⟨line, hline, rfl⟩

/-- **C25.** In particular a description without a `*` directly before a `*/` is safe. -/
theorem C25_safe_without_double_star (d : String) (dep : Bool) (indent : Nat)
    (h : ∀ line ∈ splitNl d.toList, ¬ ∃ pre post, remove2 '/' '*' line = pre ++ '*' :: '*' :: '/' :: post) :
    ∃ before, (compileDocumentation (some d) dep indent).toList =
        before ++ '*' :: '/' :: '\n' :: List.replicate indent ' ' ∧ ¬ Closes (before ++ ['*']) := by
  obtain ⟨before, h1, h2⟩ := C25_comment_closed_early_iff d dep indent
  refine ⟨before, h1, fun hc => ?_⟩
  obtain ⟨line, hline, pre, k, post, e⟩ := h2.1 hc
  exact h line hline ⟨pre, closers k ++ '/' :: post, e⟩

/-- **C25.** A description does break out of its comment. -/
theorem C25_break_out : compileDocumentation (some "**//; evil(); /**") false 0 =
    "/**\n * */; evil(); *\n */\n" ∧ BreaksOut "**//; evil(); /**".toList := by
  refine ⟨by decide, [], 0, "; evil(); *".toList, by decide⟩

example : ∃ line ∈ splitNl "ok\n**//".toList, BreaksOut line :=
  ⟨"**//".toList, by decide, [], 0, [], by decide⟩

example : ∀ line ∈ splitNl "see /* this */\nand * that".toList,
    ¬ ∃ pre post, remove2 '/' '*' line = pre ++ '*' :: '*' :: '/' :: post := by
  intro line hl
  have : line = "see /* this */".toList ∨ line = "and * that".toList := by
    have e : splitNl "see /* this */\nand * that".toList =
      ["see /* this */".toList, "and * that".toList] := by decide
    rw [e] at hl
    simpa using hl
  rintro ⟨pre, post, h⟩
  have hlen := congrArg (fun l => (l.filter (· = '*')).length) h
  simp only [List.filter_append, List.length_append] at hlen
  rcases this with rfl | rfl
  · have e : (List.filter (fun x => decide (x = '*')) (remove2 '/' '*' "see /* this */".toList)).length = 1 := by
      decide
    rw [e] at hlen
    simp at hlen
    omega
  · have e : (List.filter (fun x => decide (x = '*')) (remove2 '/' '*' "and * that".toList)).length = 1 := by
      decide
    rw [e] at hlen
    simp at hlen
    omega

end Qlc
