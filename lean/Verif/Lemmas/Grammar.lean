import Verif.Spec.Grammar
import Verif.Spec.Docs
import Verif.Props.Docs
import Verif.Lemmas.Inhabit
/-
Helper lemmas for C75 and C76: how printed declarations are read back.
-/
set_option autoImplicit false

namespace Qlc
open Spec

/-! ### The lexer on part of a text -/

/-- The lexer on the beginning of a text: the tokens completed and the state reached. -/
def lexTo : TkSt → List Char → Option (List Tk × TkSt)
  | st, [] => some ([], st)
  | .start, c :: cs =>
    match tkChar c with
    | none => none
    | some (ts, st) => (lexTo st cs).map (fun r => (ts ++ r.1, r.2))
  | .ident acc, c :: cs =>
    if isIdentChar c then lexTo (.ident (acc ++ [c])) cs
    else match tkChar c with
      | none => none
      | some (ts, st) => (lexTo st cs).map (fun r => (.ident acc :: (ts ++ r.1), r.2))
  | .str acc, c :: cs =>
    if c = '"' then (lexTo .start cs).map (fun r => (.str acc :: r.1, r.2))
    else if c = '\n' ∨ c = '\r' ∨ c = '\\' then none
    else lexTo (.str (acc ++ [c])) cs
  | .slash, c :: cs =>
    if c = '/' then lexTo .line cs
    else if c = '*' then lexTo .block cs
    else none
  | .line, c :: cs => if c = '\n' then lexTo .start cs else lexTo .line cs
  | .block, c :: cs => if c = '*' then lexTo .star cs else lexTo .block cs
  | .star, c :: cs =>
    if c = '/' then lexTo .start cs
    else if c = '*' then lexTo .star cs
    else lexTo .block cs

theorem tokens_lexTo : ∀ (s : List Char) (st : TkSt) (ts : List Tk) (st' : TkSt) (rest : List Char),
    lexTo st s = some (ts, st') → tokens st (s ++ rest) = (tokens st' rest).map (ts ++ ·)
  | [], st, ts, st', rest, h => by
    simp only [lexTo, Option.some.injEq, Prod.mk.injEq] at h
    obtain ⟨rfl, rfl⟩ := h
    simp
  | c :: cs, st, ts, st', rest, h => by
    have ih := tokens_lexTo cs
    rw [List.cons_append]
    cases st with
    | start =>
      simp only [lexTo] at h
      simp only [tokens]
      cases hc : tkChar c with
      | none => rw [hc] at h; simp at h
      | some r =>
        obtain ⟨us, u⟩ := r
        rw [hc] at h
        simp only [Option.map_eq_some_iff, Prod.mk.injEq, Prod.exists] at h
        obtain ⟨a, b, h1, rfl, rfl⟩ := h
        simp only
        rw [ih _ _ _ rest h1]
        simp [Option.map_map, Function.comp_def]
    | ident acc =>
      simp only [lexTo] at h
      simp only [tokens]
      by_cases hi : isIdentChar c = true
      · rw [if_pos hi] at h ⊢
        exact ih _ _ _ rest h
      · rw [if_neg hi] at h ⊢
        cases hc : tkChar c with
        | none => rw [hc] at h; simp at h
        | some r =>
          obtain ⟨us, u⟩ := r
          rw [hc] at h
          simp only [Option.map_eq_some_iff, Prod.mk.injEq, Prod.exists] at h
          obtain ⟨a, b, h1, rfl, rfl⟩ := h
          simp only
          rw [ih _ _ _ rest h1]
          simp [Option.map_map, Function.comp_def]
    | str acc =>
      simp only [lexTo] at h
      simp only [tokens]
      by_cases hq : c = '"'
      · rw [if_pos hq] at h ⊢
        simp only [Option.map_eq_some_iff, Prod.mk.injEq, Prod.exists] at h
        obtain ⟨a, b, h1, rfl, rfl⟩ := h
        rw [ih _ _ _ rest h1]
        simp [Option.map_map, Function.comp_def]
      · rw [if_neg hq] at h ⊢
        by_cases hb : c = '\n' ∨ c = '\r' ∨ c = '\\'
        · rw [if_pos hb] at h; simp at h
        · rw [if_neg hb] at h ⊢
          exact ih _ _ _ rest h
    | slash =>
      simp only [lexTo] at h
      simp only [tokens]
      split at h
      · rename_i e; rw [if_pos e]; exact ih _ _ _ rest h
      · rename_i e
        rw [if_neg e]
        split at h
        · rename_i e; rw [if_pos e]; exact ih _ _ _ rest h
        · simp at h
    | line =>
      simp only [lexTo] at h
      simp only [tokens]
      split at h
      · rename_i e; rw [if_pos e]; exact ih _ _ _ rest h
      · rename_i e; rw [if_neg e]; exact ih _ _ _ rest h
    | block =>
      simp only [lexTo] at h
      simp only [tokens]
      split at h
      · rename_i e; rw [if_pos e]; exact ih _ _ _ rest h
      · rename_i e; rw [if_neg e]; exact ih _ _ _ rest h
    | star =>
      simp only [lexTo] at h
      simp only [tokens]
      split at h
      · rename_i e; rw [if_pos e]; exact ih _ _ _ rest h
      · rename_i e
        rw [if_neg e]
        split at h
        · rename_i e; rw [if_pos e]; exact ih _ _ _ rest h
        · rename_i e; rw [if_neg e]; exact ih _ _ _ rest h

/-- From state `st` the text `s` gives the tokens `ts` and leads to state `st'`. -/
def Lexes (st : TkSt) (s : List Char) (ts : List Tk) (st' : TkSt) : Prop := lexTo st s = some (ts, st')

theorem Lexes.nil (st : TkSt) : Lexes st [] [] st := by
  unfold Lexes; cases st <;> rfl

theorem Lexes.append : ∀ {a b : List Char} {st st' st'' : TkSt} {ta tb : List Tk},
    Lexes st a ta st' → Lexes st' b tb st'' → Lexes st (a ++ b) (ta ++ tb) st''
  | [], b, st, st', st'', ta, tb, ha, hb => by
    unfold Lexes at ha
    simp only [lexTo, Option.some.injEq, Prod.mk.injEq] at ha
    obtain ⟨rfl, rfl⟩ := ha
    exact hb
  | c :: cs, b, st, st', st'', ta, tb, ha, hb => by
    have ih : ∀ {st ta}, lexTo st cs = some (ta, st') → lexTo st (cs ++ b) = some (ta ++ tb, st'') :=
      fun h => Lexes.append h hb
    unfold Lexes at ha ⊢
    rw [List.cons_append]
    cases st with
    | start =>
      simp only [lexTo] at ha ⊢
      cases hc : tkChar c with
      | none => rw [hc] at ha; simp at ha
      | some r =>
        obtain ⟨us, u⟩ := r
        rw [hc] at ha
        simp only [Option.map_eq_some_iff, Prod.mk.injEq, Prod.exists] at ha
        obtain ⟨x, y, h1, rfl, rfl⟩ := ha
        simp only
        rw [ih h1]
        simp
    | ident acc =>
      simp only [lexTo] at ha ⊢
      by_cases hi : isIdentChar c = true
      · rw [if_pos hi] at ha ⊢
        exact ih ha
      · rw [if_neg hi] at ha ⊢
        cases hc : tkChar c with
        | none => rw [hc] at ha; simp at ha
        | some r =>
          obtain ⟨us, u⟩ := r
          rw [hc] at ha
          simp only [Option.map_eq_some_iff, Prod.mk.injEq, Prod.exists] at ha
          obtain ⟨x, y, h1, rfl, rfl⟩ := ha
          simp only
          rw [ih h1]
          simp
    | str acc =>
      simp only [lexTo] at ha ⊢
      by_cases hq : c = '"'
      · rw [if_pos hq] at ha ⊢
        simp only [Option.map_eq_some_iff, Prod.mk.injEq, Prod.exists] at ha
        obtain ⟨x, y, h1, rfl, rfl⟩ := ha
        rw [ih h1]
        simp
      · rw [if_neg hq] at ha ⊢
        by_cases hb' : c = '\n' ∨ c = '\r' ∨ c = '\\'
        · rw [if_pos hb'] at ha; simp at ha
        · rw [if_neg hb'] at ha ⊢
          exact ih ha
    | slash =>
      simp only [lexTo] at ha ⊢
      split at ha
      · rename_i e; rw [if_pos e]; exact ih ha
      · rename_i e
        rw [if_neg e]
        split at ha
        · rename_i e; rw [if_pos e]; exact ih ha
        · simp at ha
    | line =>
      simp only [lexTo] at ha ⊢
      split at ha
      · rename_i e; rw [if_pos e]; exact ih ha
      · rename_i e; rw [if_neg e]; exact ih ha
    | block =>
      simp only [lexTo] at ha ⊢
      split at ha
      · rename_i e; rw [if_pos e]; exact ih ha
      · rename_i e; rw [if_neg e]; exact ih ha
    | star =>
      simp only [lexTo] at ha ⊢
      split at ha
      · rename_i e; rw [if_pos e]; exact ih ha
      · rename_i e
        rw [if_neg e]
        split at ha
        · rename_i e; rw [if_pos e]; exact ih ha
        · rename_i e; rw [if_neg e]; exact ih ha

theorem Lexes.identGo (cs : List Char) : ∀ acc, (∀ c ∈ cs, isIdentChar c = true) →
    Lexes (.ident acc) cs [] (.ident (acc ++ cs)) := by
  induction cs with
  | nil => intro acc _; simpa using Lexes.nil _
  | cons c cs ih =>
    intro acc h
    unfold Lexes
    simp only [lexTo, h c (by simp), if_true]
    rw [ih _ (fun d hd => h d (by simp [hd]))]
    simp

/-- A name leads into an identifier. -/
theorem Lexes.name {cs : List Char} (hne : cs ≠ []) (h : ∀ c ∈ cs, isIdentChar c = true) :
    Lexes .start cs [] (.ident cs) := by
  cases cs with
  | nil => exact absurd rfl hne
  | cons c cs =>
    have hc : isIdentChar c = true := h c (by simp)
    have : tkChar c = some ([], .ident [c]) := by simp [tkChar, hc]
    unfold Lexes
    simp only [lexTo, this]
    rw [Lexes.identGo cs [c] (fun d hd => h d (by simp [hd]))]
    simp

/-- A character that does not continue the identifier completes it. -/
theorem Lexes.after {acc s : List Char} {ts : List Tk} {st : TkSt} {c : Char} {cs : List Char}
    (e : s = c :: cs) (hc : isIdentChar c = false) (h : Lexes .start s ts st) :
    Lexes (.ident acc) s (.ident acc :: ts) st := by
  subst e
  unfold Lexes at h ⊢
  simp only [lexTo] at h ⊢
  rw [if_neg (by simp [hc])]
  cases ht : tkChar c with
  | none => rw [ht] at h; simp at h
  | some r =>
    obtain ⟨us, u⟩ := r
    rw [ht] at h
    simp only [Option.map_eq_some_iff, Prod.mk.injEq, Prod.exists] at h ⊢
    obtain ⟨x, y, h1, rfl, rfl⟩ := h
    exact ⟨x, y, h1, rfl, rfl⟩

/-- A name followed by a fixed text. -/
theorem Lexes.nameThen {n s : List Char} {ts : List Tk} {st : TkSt} {c : Char} {cs : List Char}
    (hne : n ≠ []) (h : ∀ c ∈ n, isIdentChar c = true) (e : s = c :: cs) (hc : isIdentChar c = false)
    (hs : Lexes .start s ts st) : Lexes .start (n ++ s) (.ident n :: ts) st :=
  (Lexes.name hne h).append (Lexes.after e hc hs)

theorem Lexes.strGo (cs : List Char) : ∀ acc, StrOk cs → Lexes (.str acc) (cs ++ ['"']) [.str (acc ++ cs)] .start := by
  induction cs with
  | nil => intro acc _; unfold Lexes; simp [lexTo]
  | cons c cs ih =>
    intro acc h
    obtain ⟨h1, h2, h3, h4⟩ := h c (by simp)
    unfold Lexes
    simp only [List.cons_append, lexTo, if_neg h1, h2, h3, h4, or_self, if_false]
    have := ih (acc ++ [c]) (fun d hd => h d (by simp [hd]))
    unfold Lexes at this
    rw [this]
    simp

/-- A string literal. -/
theorem Lexes.string {cs : List Char} (h : StrOk cs) : Lexes .start ('"' :: (cs ++ ['"'])) [.str cs] .start := by
  have h1 : tkChar '"' = some ([], .str []) := by decide
  have := Lexes.strGo cs [] h
  unfold Lexes at this ⊢
  simp only [lexTo, h1]
  rw [this]
  simp

/-! ### Comments -/

theorem closes_tail {c : Char} {cs : List Char} (h : Closes cs) : Closes (c :: cs) := by
  obtain ⟨pre, post, rfl⟩ := h
  exact ⟨c :: pre, post, rfl⟩

/-- In a block comment the lexer stays until `*/`. -/
theorem block_stays : ∀ (s : List Char),
    (¬ Closes s → ∃ st, (st = .block ∨ st = .star) ∧ Lexes .block s [] st) ∧
    (¬ Closes ('*' :: s) → ∃ st, (st = .block ∨ st = .star) ∧ Lexes .star s [] st)
  | [] => ⟨fun _ => ⟨.block, .inl rfl, Lexes.nil _⟩, fun _ => ⟨.star, .inr rfl, Lexes.nil _⟩⟩
  | c :: cs => by
    obtain ⟨ih1, ih2⟩ := block_stays cs
    constructor
    · intro h
      by_cases hc : c = '*'
      · subst hc
        obtain ⟨st, h1, h2⟩ := ih2 h
        exact ⟨st, h1, by unfold Lexes at h2 ⊢; simp only [lexTo, if_true]; exact h2⟩
      · obtain ⟨st, h1, h2⟩ := ih1 (fun h' => h (closes_tail h'))
        exact ⟨st, h1, by unfold Lexes at h2 ⊢; simp only [lexTo, if_neg hc]; exact h2⟩
    · intro h
      have hs : c ≠ '/' := by rintro rfl; exact h ⟨[], cs, rfl⟩
      by_cases hc : c = '*'
      · subst hc
        obtain ⟨st, h1, h2⟩ := ih2 (fun h' => h (closes_tail h'))
        exact ⟨st, h1, by unfold Lexes at h2 ⊢; simp only [lexTo, if_neg hs, if_true]; exact h2⟩
      · obtain ⟨st, h1, h2⟩ := ih1 (fun h' => h (closes_tail (closes_tail h')))
        exact ⟨st, h1, by unfold Lexes at h2 ⊢; simp only [lexTo, if_neg hs, if_neg hc]; exact h2⟩

/-- Spaces are skipped. -/
theorem Lexes.spaces : ∀ n, Lexes .start (List.replicate n ' ') [] .start
  | 0 => Lexes.nil _
  | n + 1 => by
    have h1 : tkChar ' ' = some ([], .start) := by decide
    have := Lexes.spaces n
    unfold Lexes at this ⊢
    simp only [List.replicate_succ, lexTo, h1]
    rw [this]
    simp

theorem commentOpen_head (indent : Nat) (ls : List (List Char)) :
    ∃ s, commentOpen indent ls = '/' :: '*' :: s ∧ s.head? = some '*' := by
  exact ⟨_, rfl, rfl⟩

/-- A doc comment is skipped. -/
theorem Lexes.doc {doc : Option String} (hd : DocOk doc) (dep : Bool) (indent : Nat) :
    Lexes .start (compileDocumentation doc dep indent).toList [] .start := by
  have key : ∀ before : List Char,
      (∃ s, before = '/' :: '*' :: s) → ¬ Closes (before ++ ['*']) →
      Lexes .start (before ++ '*' :: '/' :: '\n' :: List.replicate indent ' ') [] .start := by
    rintro before ⟨s, rfl⟩ hc
    have hc' : ¬ Closes (s ++ ['*']) := fun h => hc (closes_tail (closes_tail h))
    obtain ⟨st, hst, h1⟩ := (block_stays (s ++ ['*'])).1 hc'
    have h2 : st = .star := by
      -- the last character is a star
      have : ∃ st0, (st0 = .block ∨ st0 = .star) ∧ Lexes .block s [] st0 := by
        refine (block_stays s).1 (fun h => hc' ?_)
        obtain ⟨p, q, rfl⟩ := h
        exact ⟨p, q ++ ['*'], by simp⟩
      obtain ⟨st0, h0, h3⟩ := this
      have h4 : Lexes st0 ['*'] [] .star := by
        rcases h0 with rfl | rfl
        · unfold Lexes; simp [lexTo]
        · unfold Lexes; simp [lexTo]
      have h5 := h3.append h4
      unfold Lexes at h1 h5
      rw [h1] at h5
      simp at h5
      exact h5
    subst h2
    have a1 : Lexes .start ['/', '*'] [] .block := by
      have : tkChar '/' = some ([], .slash) := by decide
      unfold Lexes; simp [lexTo, this]
    have a2 : Lexes .star ['/', '\n'] [] .start := by
      have : tkChar '\n' = some ([], .start) := by decide
      unfold Lexes; simp [lexTo, this]
    have := ((a1.append h1).append a2).append (Lexes.spaces indent)
    simpa using this
  cases doc with
  | some d =>
    obtain ⟨before, h1, h2⟩ := C25_comment_closed_early_iff d dep indent
    rw [h1]
    refine key before ?_ ?_
    · have h3 := C26_doc_comment (some d) dep indent
      rw [h1] at h3
      generalize docLines (some d) ++ (if dep then ["@deprecated".toList] else []) = X at h3
      unfold comment at h3
      by_cases hX : X = []
      · rw [if_pos hX] at h3; simp at h3
      · rw [if_neg hX] at h3
        obtain ⟨s, h4, _⟩ := commentOpen_head indent X
        exact ⟨s, (List.append_cancel_right h3).trans h4⟩
    · intro hc
      obtain ⟨line, hl, hb⟩ := h2.1 hc
      exact hd d rfl line hl hb
  | none =>
    rw [C26_doc_comment]
    cases dep with
    | false => simp [docLines, comment]; exact Lexes.nil _
    | true =>
      have e : docLines none ++ (if true then ["@deprecated".toList] else []) = ["@deprecated".toList] := rfl
      rw [e]
      unfold comment
      rw [if_neg (by simp)]
      refine key _ ⟨_, rfl⟩ ?_
      have hs : commentOpen indent ["@deprecated".toList] ++ ['*'] =
          ['/', '*', '*'] ++ '\n' :: (' ' :: (List.replicate indent ' ' ++
            ('*' :: ' ' :: ("@deprecated".toList ++ '\n' :: ' ' :: (List.replicate indent ' ' ++ ['*']))))) := by
        simp [commentOpen, commentLine]
      have h0 : ¬ Closes ['*'] := by rw [closes_cons]; simp [not_closes_nil]
      have h3 : ¬ Closes ['/', '*', '*'] := by
        rw [closes_cons, closes_cons]; simp [h0]
      have he : "@deprecated".toList = ['@', 'd', 'e', 'p', 'r', 'e', 'c', 'a', 't', 'e', 'd'] := by decide
      have h4 : ¬ Closes "@deprecated".toList := by
        rw [he]
        simp only [closes_cons, not_closes_nil]
        simp
      rw [hs, closes_split '\n' (by decide) (by decide), closes_cons ' ', closes_spaces, closes_cons '*',
        closes_cons ' ', closes_split '\n' (by decide) (by decide), closes_cons ' ', closes_spaces]
      simp only [h0, h3, h4]
      simp

/-! ### Types -/

/-- The state of the module lexer for a state of the type lexer. -/
def tkSt : LexSt → TkSt
  | .start => .start
  | .ident a => .ident a
  | .lit a => .str a
  | .bracket => .start

/-- The token already given out in a state of the type lexer. -/
def tkPre : LexSt → List Tk
  | .bracket => [.p '[']
  | _ => []

/-- The token still to come in a state. -/
def tkPend : TkSt → List Tk
  | .ident a => [.ident a]
  | _ => []

theorem char_sim {c : Char} {ts : List Tok} {st : LexSt} (h : lexChar c = some (ts, st)) :
    ∃ us, tkChar c = some (us, tkSt st) ∧ ∀ vs toks, typeTokens (tkPre st ++ vs) = some toks →
      typeTokens (us ++ vs) = some (ts ++ toks) := by
  unfold lexChar at h
  split at h
  · rename_i hi
    simp only [Option.some.injEq, Prod.mk.injEq] at h
    obtain ⟨rfl, rfl⟩ := h
    exact ⟨[], by simp [tkChar, hi, tkSt], fun vs toks h => h⟩
  · split at h
    · rename_i e; subst e
      simp only [Option.some.injEq, Prod.mk.injEq] at h
      obtain ⟨rfl, rfl⟩ := h
      exact ⟨[], by decide, fun vs toks h => h⟩
    · split at h
      · rename_i e; subst e
        simp only [Option.some.injEq, Prod.mk.injEq] at h
        obtain ⟨rfl, rfl⟩ := h
        refine ⟨[.p '('], by decide, fun vs toks h => ?_⟩
        simp only [tkPre, List.nil_append] at h
        simp [typeTokens, h]
      · split at h
        · rename_i e; subst e
          simp only [Option.some.injEq, Prod.mk.injEq] at h
          obtain ⟨rfl, rfl⟩ := h
          refine ⟨[.p ')'], by decide, fun vs toks h => ?_⟩
          simp only [tkPre, List.nil_append] at h
          simp [typeTokens, h]
        · split at h
          · rename_i e; subst e
            simp only [Option.some.injEq, Prod.mk.injEq] at h
            obtain ⟨rfl, rfl⟩ := h
            refine ⟨[.p '|'], by decide, fun vs toks h => ?_⟩
            simp only [tkPre, List.nil_append] at h
            simp [typeTokens, h]
          · split at h
            · rename_i e; subst e
              simp only [Option.some.injEq, Prod.mk.injEq] at h
              obtain ⟨rfl, rfl⟩ := h
              exact ⟨[.p '['], by decide, fun vs toks h => h⟩
            · split at h
              · rename_i e; subst e
                simp only [Option.some.injEq, Prod.mk.injEq] at h
                obtain ⟨rfl, rfl⟩ := h
                exact ⟨[], by decide, fun vs toks h => h⟩
              · simp at h

/-- No line breaks and no backslashes. -/
def OneLine (s : List Char) : Prop := ∀ c ∈ s, c ≠ '\n' ∧ c ≠ '\r' ∧ c ≠ '\\'

/-- The text is lexed as `ts` when something follows that does not continue an identifier. -/
def TypeLex (st : TkSt) (s : List Char) (ts : List Tk) : Prop :=
  ∃ us st', Lexes st s us st' ∧ (st' = .start ∨ ∃ a, st' = .ident a) ∧ ts = us ++ tkPend st'

theorem lex_sim : ∀ (s : List Char) (st : LexSt) (toks : List Tok), OneLine s → lex st s = some toks →
    ∃ ts, TypeLex (tkSt st) s ts ∧ typeTokens (tkPre st ++ ts) = some toks
  | [], st, toks, _, h => by
    cases st with
    | start =>
      simp only [lex, Option.some.injEq] at h; subst h
      exact ⟨[], ⟨[], .start, Lexes.nil _, .inl rfl, rfl⟩, rfl⟩
    | ident acc =>
      simp only [lex, Option.some.injEq] at h; subst h
      exact ⟨[.ident acc], ⟨[], .ident acc, Lexes.nil _, .inr ⟨_, rfl⟩, rfl⟩, rfl⟩
    | lit acc => simp [lex] at h
    | bracket => simp [lex] at h
  | c :: cs, st, toks, ho, h => by
    have ih := fun st toks => lex_sim cs st toks (fun d hd => ho d (by simp [hd]))
    cases st with
    | start =>
      simp only [lex] at h
      cases hc : lexChar c with
      | none => rw [hc] at h; simp at h
      | some r =>
        obtain ⟨us, u⟩ := r
        rw [hc] at h
        simp only [Option.map_eq_some_iff] at h
        obtain ⟨toks', h1, rfl⟩ := h
        obtain ⟨ts, ⟨vs, st', h2, h3, rfl⟩, h4⟩ := ih _ _ h1
        obtain ⟨ws, h5, h6⟩ := char_sim hc
        refine ⟨ws ++ (vs ++ tkPend st'), ⟨ws ++ vs, st', ?_, h3, by simp⟩, h6 _ _ h4⟩
        unfold Lexes at h2 ⊢
        have e : lexTo (tkSt .start) (c :: cs) = (lexTo (tkSt u) cs).map (fun r => (ws ++ r.1, r.2)) := by
          show lexTo .start (c :: cs) = _
          simp only [lexTo, h5]
        rw [e, h2]; rfl
    | ident acc =>
      simp only [lex] at h
      by_cases hi : isIdentChar c = true
      · rw [if_pos hi] at h
        obtain ⟨ts, ⟨vs, st', h2, h3, rfl⟩, h4⟩ := ih _ _ h
        refine ⟨_, ⟨vs, st', ?_, h3, rfl⟩, h4⟩
        unfold Lexes at h2 ⊢
        simp only [tkSt, lexTo, if_pos hi]
        exact h2
      · rw [if_neg hi] at h
        cases hc : lexChar c with
        | none => rw [hc] at h; simp at h
        | some r =>
          obtain ⟨us, u⟩ := r
          rw [hc] at h
          simp only [Option.map_eq_some_iff] at h
          obtain ⟨toks', h1, rfl⟩ := h
          obtain ⟨ts, ⟨vs, st', h2, h3, rfl⟩, h4⟩ := ih _ _ h1
          obtain ⟨ws, h5, h6⟩ := char_sim hc
          refine ⟨.ident acc :: (ws ++ (vs ++ tkPend st')), ⟨.ident acc :: (ws ++ vs), st', ?_, h3, by simp⟩, ?_⟩
          · unfold Lexes at h2 ⊢
            have e : lexTo (tkSt (.ident acc)) (c :: cs) =
                (lexTo (tkSt u) cs).map (fun r => (.ident acc :: (ws ++ r.1), r.2)) := by
              show lexTo (.ident acc) (c :: cs) = _
              simp only [lexTo, if_neg hi, h5]
            rw [e, h2]; rfl
          · have := h6 _ _ h4
            simp only [tkPre, List.nil_append, typeTokens, this]
            rfl
    | lit acc =>
      simp only [lex] at h
      by_cases hq : c = '"'
      · rw [if_pos hq] at h
        simp only [Option.map_eq_some_iff] at h
        obtain ⟨toks', h1, rfl⟩ := h
        obtain ⟨ts, ⟨vs, st', h2, h3, rfl⟩, h4⟩ := ih _ _ h1
        refine ⟨.str acc :: (vs ++ tkPend st'), ⟨.str acc :: vs, st', ?_, h3, by simp⟩, ?_⟩
        · unfold Lexes at h2 ⊢
          simp only [tkSt, lexTo, if_pos hq]
          have h2' : lexTo .start cs = some (vs, st') := h2
          rw [h2']; rfl
        · simp only [tkPre, List.nil_append] at h4 ⊢
          simp only [typeTokens, h4]; rfl
      · rw [if_neg hq] at h
        obtain ⟨ts, ⟨vs, st', h2, h3, rfl⟩, h4⟩ := ih _ _ h
        refine ⟨_, ⟨vs, st', ?_, h3, rfl⟩, h4⟩
        obtain ⟨h5, h6, h7⟩ := ho c (by simp)
        unfold Lexes at h2 ⊢
        simp only [tkSt, lexTo, if_neg hq, h5, h6, h7, or_self, if_false]
        exact h2
    | bracket =>
      simp only [lex] at h
      by_cases hq : c = ']'
      · rw [if_pos hq] at h
        simp only [Option.map_eq_some_iff] at h
        obtain ⟨toks', h1, rfl⟩ := h
        obtain ⟨ts, ⟨vs, st', h2, h3, rfl⟩, h4⟩ := ih _ _ h1
        refine ⟨.p ']' :: (vs ++ tkPend st'), ⟨.p ']' :: vs, st', ?_, h3, by simp⟩, ?_⟩
        · subst hq
          have hc : tkChar ']' = some ([.p ']'], .start) := by decide
          unfold Lexes at h2 ⊢
          simp only [tkSt, lexTo, hc]
          have h2' : lexTo .start cs = some (vs, st') := h2
          rw [h2']; rfl
        · simp only [tkPre, List.nil_append] at h4
          show typeTokens (.p '[' :: .p ']' :: (vs ++ tkPend st')) = _
          simp only [typeTokens, h4]; rfl
      · rw [if_neg hq] at h; simp at h

theorem TypeLex.then {st : TkSt} {s s' : List Char} {ts ts' : List Tk} {st' : TkSt} {c : Char} {cs : List Char}
    (h : TypeLex st s ts) (e : s' = c :: cs) (hc : isIdentChar c = false) (h' : Lexes .start s' ts' st') :
    Lexes st (s ++ s') (ts ++ ts') st' := by
  obtain ⟨us, u, h1, h2, rfl⟩ := h
  rcases h2 with rfl | ⟨a, rfl⟩
  · simpa [tkPend] using h1.append h'
  · have := h1.append (Lexes.after (acc := a) e hc h')
    simpa [tkPend] using this

/-- Tokens that cut a text. -/
def cutters : List Tk := [.p '{', .p '}', .p ';']

/-- Tokens that do not occur in types. -/
def NotInTypes (t : Tk) : Prop := t ∈ cutters ∨ t = .p ',' ∨ t = .p '<' ∨ t = .p '>'

theorem typeTokens_clean : ∀ (ts : List Tk) (toks : List Tok), typeTokens ts = some toks →
    ∀ t ∈ ts, ¬ NotInTypes t := by
  have hid : ∀ s, ¬ NotInTypes (.ident s) := by intro s; simp [NotInTypes, cutters]
  have hst : ∀ s, ¬ NotInTypes (.str s) := by intro s; simp [NotInTypes, cutters]
  intro ts
  induction ts using typeTokens.induct with
  | case1 => simp
  | case2 s ts ih =>
    intro toks h
    simp only [typeTokens, Option.map_eq_some_iff] at h
    obtain ⟨a, h1, _⟩ := h
    intro t ht
    rcases List.mem_cons.1 ht with rfl | ht
    · exact hid _
    · exact ih _ h1 t ht
  | case3 s ts ih =>
    intro toks h
    simp only [typeTokens, Option.map_eq_some_iff] at h
    obtain ⟨a, h1, _⟩ := h
    intro t ht
    rcases List.mem_cons.1 ht with rfl | ht
    · exact hst _
    · exact ih _ h1 t ht
  | case4 ts ih =>
    intro toks h
    simp only [typeTokens, Option.map_eq_some_iff] at h
    obtain ⟨a, h1, _⟩ := h
    intro t ht
    rcases List.mem_cons.1 ht with rfl | ht
    · simp [NotInTypes, cutters]
    · exact ih _ h1 t ht
  | case5 ts ih =>
    intro toks h
    simp only [typeTokens, Option.map_eq_some_iff] at h
    obtain ⟨a, h1, _⟩ := h
    intro t ht
    rcases List.mem_cons.1 ht with rfl | ht
    · simp [NotInTypes, cutters]
    · exact ih _ h1 t ht
  | case6 ts ih =>
    intro toks h
    simp only [typeTokens, Option.map_eq_some_iff] at h
    obtain ⟨a, h1, _⟩ := h
    intro t ht
    rcases List.mem_cons.1 ht with rfl | ht
    · simp [NotInTypes, cutters]
    · exact ih _ h1 t ht
  | case7 ts ih =>
    intro toks h
    simp only [typeTokens, Option.map_eq_some_iff] at h
    obtain ⟨a, h1, _⟩ := h
    intro t ht
    rcases List.mem_cons.1 ht with rfl | ht
    · simp [NotInTypes, cutters]
    · rcases List.mem_cons.1 ht with rfl | ht
      · simp [NotInTypes, cutters]
      · exact ih _ h1 t ht
  | case8 c ts h1 h2 h3 h4 =>
    intro toks h
    simp [typeTokens] at h

/-- The text is read as the type `t`. -/
def ReadsType (s : List Char) (t : TsTy) : Prop :=
  ∃ ts, TypeLex .start s ts ∧ readType ts = some t ∧ ∀ k ∈ ts, ¬ NotInTypes k

theorem readsType_of_parse {s : String} {t : TsTy} (h : parseTs s = some t) (ho : OneLine s.toList)
    (hr : ∀ n ∈ t.refs, IsTypeRef n) : ReadsType s.toList t := by
  unfold parseTs at h
  cases hl : lex .start s.toList with
  | none => rw [hl] at h; simp at h
  | some toks =>
    rw [hl] at h
    simp only at h
    obtain ⟨ts, h1, h2⟩ := lex_sim _ _ _ ho hl
    simp only [tkPre, List.nil_append] at h2
    refine ⟨ts, h1, ?_, typeTokens_clean ts toks h2⟩
    unfold readType
    rw [h2]
    simp only
    split at h
    · rename_i acc u hp
      rw [hp]
      simp only [Option.some.injEq] at h
      subst h
      simp only
      rw [if_pos hr]
    · simp at h

end Qlc
