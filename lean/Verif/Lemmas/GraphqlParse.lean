import Verif.Lemmas.GraphqlLex
/-
The definitions that the model finds are the definitions of the grammar.
-/
set_option autoImplicit false

namespace Qlc
open Spec

/-! ### Single tokens -/

/-- The tokens do not begin with this one. -/
def NotNext (t : GTok) (ts : Toks) : Prop := ∀ p r, ts ≠ (p, t) :: r

theorem eat_here (t : GTok) (p : Pos) (r : Toks) : eat t ((p, t) :: r) = some r := by
  rw [eat, if_pos rfl]

theorem eat_none {t : GTok} {ts : Toks} (h : NotNext t ts) : eat t ts = none := by
  cases ts with
  | nil => rfl
  | cons x r =>
    obtain ⟨p, t'⟩ := x
    rw [eat, if_neg]
    rintro rfl
    exact h p r rfl

theorem eat_sound {t : GTok} {ts r : Toks} (h : eat t ts = some r) : ∃ p, ts = (p, t) :: r := by
  cases ts with
  | nil => cases h
  | cons x r' =>
    obtain ⟨p, t'⟩ := x
    rw [eat] at h
    split at h
    · rename_i e
      cases h
      exact ⟨p, by rw [e]⟩
    · cases h

theorem eatName_sound {ts r : Toks} {s : String} (h : eatName ts = some (s, r)) : ∃ p, ts = (p, .name s) :: r := by
  unfold eatName at h
  split at h
  · cases h
    exact ⟨_, rfl⟩
  · cases h

theorem notNext_of_ne {t t' : GTok} (h : t' ≠ t) (p : Pos) (r : Toks) : NotNext t ((p, t') :: r) := by
  intro p' r' e
  cases e
  exact h rfl

/-! ### Values -/

theorem val_head {const : Bool} {v : Value} {ts : Toks} (h : IsVal const (.value v) ts) :
    ∃ p t r, ts = (p, t) :: r ∧ t ≠ .punct ']' ∧ t ≠ .punct '}' ∧ t ≠ .punct ')' := by
  cases h <;> exact ⟨_, _, _, rfl, by simp, by simp, by simp⟩

theorem close_ne (b : Bracket) {t : GTok} (h : t ≠ .punct ']' ∧ t ≠ .punct '}' ∧ t ≠ .punct ')') : t ≠ .punct b.close := by
  cases b
  · exact h.1
  · exact h.2.1
  · exact h.2.2

/-- What the parser does with a piece. -/
def ReadsPiece (const : Bool) : GPiece → Toks → Prop
  | .value v, ts => ∀ n rest, ts.length ≤ n → parseGValue const (parseInside const n) (ts ++ rest) = some (v, rest)
  | .inside b vs, ts => ∀ n p rest, ts.length < n →
      parseInside const n b (ts ++ (p, .punct b.close) :: rest) = some (vs, rest)

theorem value_complete {const : Bool} {x : GPiece} {ts : Toks} (h : IsVal const x ts) : ReadsPiece const x ts := by
  induction h with
  | yes => intro n rest _; rfl
  | no => intro n rest _; rfl
  | word h1 h2 =>
    intro n rest _
    rw [List.cons_append, List.nil_append, parseGValue, wordValue, if_neg h1, if_neg h2]
  | number => intro n rest _; rfl
  | string => intro n rest _; rfl
  | var hc =>
    intro n rest _
    subst hc
    rfl
  | list _ ih =>
    rename_i p p' vs ts _
    intro n rest hn
    simp only [List.cons_append, List.length_cons, List.length_append, List.length_nil] at hn
    rw [List.cons_append, List.cons_append, parseGValue, if_neg (by decide), if_pos rfl, List.append_assoc]
    have := ih n p' rest (by omega)
    rw [List.cons_append, List.nil_append]
    rw [show GTok.punct ']' = .punct Bracket.list.close from rfl, this]
    rfl
  | object _ ih =>
    rename_i p p' vs ts _
    intro n rest hn
    simp only [List.cons_append, List.length_cons, List.length_append, List.length_nil] at hn
    rw [List.cons_append, List.cons_append, parseGValue, if_neg (by decide), if_neg (by decide), if_pos rfl,
      List.append_assoc]
    have := ih n p' rest (by omega)
    rw [List.cons_append, List.nil_append]
    rw [show GTok.punct '}' = .punct Bracket.object.close from rfl, this]
    rfl
  | none =>
    intro n p rest hn
    obtain ⟨n, rfl⟩ : ∃ m, n = m + 1 := ⟨n - 1, by omega⟩
    rw [List.nil_append, parseInside, eat_here]
  | item hv _ ih ih' =>
    rename_i v vs ts rest₀ _
    intro n p rest hn
    obtain ⟨n, rfl⟩ : ∃ m, n = m + 1 := ⟨n - 1, by omega⟩
    obtain ⟨p', t, r, rfl, ht⟩ := val_head hv
    simp only [List.cons_append, List.length_cons, List.length_append] at hn
    rw [parseInside, eat_none]
    · simp only [eatKey]
      have h1 := ih n (rest₀ ++ (p, .punct Bracket.list.close) :: rest) (by simp only [List.length_cons]; omega)
      rw [List.append_assoc, h1]
      simp only
      rw [ih' n p rest (by omega)]
      rfl
    · exact notNext_of_ne (close_ne _ ht) _ _
  | entry hb hv _ ih ih' =>
    rename_i b p₁ p₂ k v vs ts rest₀ _
    intro n p rest hn
    obtain ⟨n, rfl⟩ : ∃ m, n = m + 1 := ⟨n - 1, by omega⟩
    obtain ⟨p', t, r, rfl, ht⟩ := val_head hv
    simp only [List.cons_append, List.length_cons, List.length_append] at hn
    rw [parseInside, eat_none]
    · have hk : eatKey b ((p₁, .name k) :: (p₂, .punct ':') :: ((p', t) :: r ++ rest₀) ++ (p, .punct b.close) :: rest) =
          some (k, (p', t) :: r ++ (rest₀ ++ (p, .punct b.close) :: rest)) := by
        unfold eatKey
        cases b with
        | list => exact absurd rfl hb
        | object => simp [eatName, eat]
        | arguments => simp [eatName, eat]
      rw [hk]
      simp only
      have h1 := ih n (rest₀ ++ (p, .punct b.close) :: rest) (by simp only [List.length_cons]; omega)
      rw [h1]
      simp only
      rw [ih' n p rest (by omega)]
      rfl
    · exact notNext_of_ne (by simp) _ _

theorem value_sound {const : Bool} {inside : Bracket → Toks → Option (List (String × Value) × Toks)}
    (hi : ∀ b cs vs r, inside b cs = some (vs, r) →
      ∃ ts p, IsVal const (.inside b vs) ts ∧ cs = ts ++ (p, .punct b.close) :: r)
    {cs r : Toks} {v : Value} (h : parseGValue const inside cs = some (v, r)) :
    ∃ ts, IsVal const (.value v) ts ∧ cs = ts ++ r := by
  unfold parseGValue at h
  split at h
  · rename_i p s r'
    cases h
    unfold wordValue
    split
    · rename_i e; subst e; exact ⟨_, .yes, rfl⟩
    · split
      · rename_i e; subst e; exact ⟨_, .no, rfl⟩
      · rename_i h1 h2; exact ⟨_, .word h1 h2, rfl⟩
  · cases h; exact ⟨_, .number, rfl⟩
  · cases h; exact ⟨_, .string, rfl⟩
  · rename_i q c r₀
    split at h
    · rename_i hc
      subst hc
      split at h
      · cases h
      · rename_i hconst
        rw [Option.map_eq_some_iff] at h
        obtain ⟨⟨s, r'⟩, h, e⟩ := h
        cases e
        obtain ⟨p, rfl⟩ := eatName_sound h
        exact ⟨_, .var (by simpa using hconst), rfl⟩
    · split at h
      · rename_i hc
        subst hc
        rw [Option.map_eq_some_iff] at h
        obtain ⟨⟨vs, r'⟩, h, e⟩ := h
        cases e
        obtain ⟨ts, p, h1, rfl⟩ := hi _ _ _ _ h
        exact ⟨_, .list (p := q) (p' := p) h1, by simp [Bracket.close]⟩
      · split at h
        · rename_i hc
          subst hc
          rw [Option.map_eq_some_iff] at h
          obtain ⟨⟨vs, r'⟩, h, e⟩ := h
          cases e
          obtain ⟨ts, p, h1, rfl⟩ := hi _ _ _ _ h
          exact ⟨_, .object (p := q) (p' := p) h1, by simp [Bracket.close]⟩
        · cases h
  · cases h

theorem inside_sound {const : Bool} : ∀ (n : Nat) (b : Bracket) (cs : Toks) (vs : List (String × Value)) (r : Toks),
    parseInside const n b cs = some (vs, r) →
    ∃ ts p, IsVal const (.inside b vs) ts ∧ cs = ts ++ (p, .punct b.close) :: r
  | 0, b, cs, vs, r, h => by cases h
  | n + 1, b, cs, vs, r, h => by
    rw [parseInside] at h
    split at h
    · rename_i r' he
      cases h
      obtain ⟨p, rfl⟩ := eat_sound he
      exact ⟨[], p, .none, rfl⟩
    · split at h
      · cases h
      · rename_i k r₁ hk
        split at h
        · cases h
        · rename_i v r₂ hv
          rw [Option.map_eq_some_iff] at h
          obtain ⟨⟨vs', r₃⟩, h, e⟩ := h
          cases e
          obtain ⟨ts₁, h1, rfl⟩ := value_sound (inside_sound n) hv
          obtain ⟨ts₂, p, h2, rfl⟩ := inside_sound n b _ _ _ h
          unfold eatKey at hk
          split at hk
          · cases hk
            exact ⟨_, p, .item h1 h2, by simp⟩
          · rename_i hb
            split at hk
            · cases hk
            · rename_i k' r₄ hn
              rw [Option.map_eq_some_iff] at hk
              obtain ⟨r₅, hk, e⟩ := hk
              cases e
              obtain ⟨p₁, rfl⟩ := eatName_sound hn
              obtain ⟨p₂, rfl⟩ := eat_sound hk
              exact ⟨_, p, .entry (p := p₁) (p' := p₂) (k := k) (fun e => hb e) h1 h2, by simp⟩

/-! ### Arguments and directives -/

theorem arguments_complete {args : List (String × Value)} {ts : Toks} (h : IsArguments args ts) {rest : Toks}
    (hr : NotNext (.punct '(') rest) : parseArguments (ts ++ rest) = some (args, rest) := by
  unfold parseArguments
  cases h with
  | none => rw [List.nil_append, eat_none hr]
  | some hne hv =>
    rename_i p p' ts
    rw [List.cons_append, List.cons_append, eat_here]
    simp only
    have := value_complete hv ((ts ++ [(p', GTok.punct ')')] ++ rest).length + 1) p' rest (by simp; omega)
    rw [show ts ++ [(p', GTok.punct ')')] ++ rest = ts ++ (p', .punct Bracket.arguments.close) :: rest by
      simp [Bracket.close]] at this ⊢
    rw [this]
    simp only
    rw [if_neg hne]

theorem arguments_sound {args : List (String × Value)} {cs r : Toks} (h : parseArguments cs = some (args, r)) :
    ∃ ts, IsArguments args ts ∧ cs = ts ++ r := by
  unfold parseArguments at h
  split at h
  · cases h
    exact ⟨[], .none, rfl⟩
  · rename_i r' he
    obtain ⟨p, rfl⟩ := eat_sound he
    split at h
    · cases h
    · rename_i args' r₂ hp
      split at h
      · cases h
      · rename_i hne
        cases h
        obtain ⟨ts, p', h1, rfl⟩ := inside_sound _ _ _ _ _ hp
        exact ⟨_, .some (p := p) (p' := p') hne h1, by simp [Bracket.close]⟩

theorem directives_complete {dirs : List Directive} {ts : Toks} (h : IsDirectives dirs ts) {rest : Toks}
    (h1 : NotNext (.punct '@') rest) (h2 : NotNext (.punct '(') rest) :
    ∀ n, ts.length < n → parseDirectives n (ts ++ rest) = some (dirs, rest) := by
  induction h with
  | nil =>
    intro n hn
    obtain ⟨n, rfl⟩ : ∃ m, n = m + 1 := ⟨n - 1, by omega⟩
    rw [List.nil_append, parseDirectives, eat_none h1]
  | cons ha hd ih =>
    rename_i p p' name args ds ts rest₀
    intro n hn
    obtain ⟨n, rfl⟩ : ∃ m, n = m + 1 := ⟨n - 1, by omega⟩
    rw [List.cons_append, List.cons_append, parseDirectives, eat_here]
    simp only [eatName]
    rw [List.append_assoc, arguments_complete ha]
    · simp only
      rw [ih n (by simp at hn; omega)]
      rfl
    · cases hd with
      | nil => exact h2
      | cons _ _ => exact notNext_of_ne (by simp) _ _

theorem directives_sound : ∀ (n : Nat) {dirs : List Directive} {cs r : Toks}, parseDirectives n cs = some (dirs, r) →
    ∃ ts, IsDirectives dirs ts ∧ cs = ts ++ r
  | 0, dirs, cs, r, h => by cases h
  | n + 1, dirs, cs, r, h => by
    rw [parseDirectives] at h
    split at h
    · cases h
      exact ⟨[], .nil, rfl⟩
    · rename_i r₁ he
      obtain ⟨p, rfl⟩ := eat_sound he
      split at h
      · cases h
      · rename_i name r₂ hn
        obtain ⟨p', rfl⟩ := eatName_sound hn
        split at h
        · cases h
        · rename_i args r₃ ha
          obtain ⟨ts, h1, rfl⟩ := arguments_sound ha
          rw [Option.map_eq_some_iff] at h
          obtain ⟨⟨ds, r₄⟩, h, e⟩ := h
          cases e
          obtain ⟨ts', h2, rfl⟩ := directives_sound n h
          exact ⟨_, .cons (p := p) (p' := p') h1 h2, by simp⟩

/-! ### Selections -/

/-- What may follow a selection. -/
structure Follows (ts : Toks) : Prop where
  colon : NotNext (.punct ':') ts
  paren : NotNext (.punct '(') ts
  at_ : NotNext (.punct '@') ts
  brace : NotNext (.punct '{') ts

theorem follows_of {t : GTok} (h : t ≠ .punct ':' ∧ t ≠ .punct '(' ∧ t ≠ .punct '@' ∧ t ≠ .punct '{') (p : Pos) (r : Toks) :
    Follows ((p, t) :: r) :=
  ⟨notNext_of_ne h.1 p r, notNext_of_ne h.2.1 p r, notNext_of_ne h.2.2.1 p r, notNext_of_ne h.2.2.2 p r⟩

theorem args_head {args : List (String × Value)} {ts : Toks} (h : IsArguments args ts) {t : GTok} (ht : t ≠ .punct '(')
    {rest : Toks} (hr : NotNext t rest) : NotNext t (ts ++ rest) := by
  cases h with
  | none => exact hr
  | some _ _ => exact notNext_of_ne (fun e => ht e.symm) _ _

theorem dirs_head {dirs : List Directive} {ts : Toks} (h : IsDirectives dirs ts) {t : GTok} (ht : t ≠ .punct '@')
    {rest : Toks} (hr : NotNext t rest) : NotNext t (ts ++ rest) := by
  cases h with
  | nil => exact hr
  | cons _ _ => exact notNext_of_ne (fun e => ht e.symm) _ _

theorem fieldHead_complete {pos : Pos} {al : Option String} {n : String} {args : List (String × Value)}
    {dirs : List Directive} {ns as ds rest : Toks} (hn : IsFieldName pos al n ns) (ha : IsArguments args as)
    (hd : IsDirectives dirs ds) (h1 : NotNext (.punct ':') rest) (h2 : NotNext (.punct '(') rest)
    (h3 : NotNext (.punct '@') rest) :
    parseSelHead (ns ++ (as ++ (ds ++ rest))) = some (.field pos al n args dirs, rest) := by
  have ka := arguments_complete ha (rest := ds ++ rest) (dirs_head hd (by simp) h2)
  have kd := directives_complete hd h3 h2 ((ds ++ rest).length + 1) (by simp; omega)
  have hf : ∀ first ts, parseFieldName first ts = some (al, n, as ++ (ds ++ rest)) →
      parseFieldHead pos first ts = some (.field pos al n args dirs, rest) := by
    intro first ts h
    unfold parseFieldHead
    rw [h]
    simp only
    rw [ka]
    simp only
    rw [kd]
  cases hn with
  | plain =>
    rw [List.cons_append, List.nil_append, parseSelHead]
    apply hf
    unfold parseFieldName
    rw [eat_none (args_head ha (by simp) (dirs_head hd (by simp) h1))]
  | aliased =>
    rw [List.cons_append, List.cons_append, List.cons_append, List.nil_append, parseSelHead]
    apply hf
    unfold parseFieldName
    rw [eat_here]
    rfl

theorem sel_head {s : Selection} {ts : Toks} (h : Selects (.one s) ts) :
    ∃ p t r, ts = (p, t) :: r ∧ (t = .dots ∨ ∃ n, t = .name n) := by
  cases h with
  | field hn _ _ => cases hn <;> exact ⟨_, _, _, rfl, .inr ⟨_, rfl⟩⟩
  | fieldWith hn _ _ _ => cases hn <;> exact ⟨_, _, _, rfl, .inr ⟨_, rfl⟩⟩
  | «inline» _ _ _ => exact ⟨_, _, _, rfl, .inl rfl⟩
  | spread _ _ => exact ⟨_, _, _, rfl, .inl rfl⟩

theorem sels_head {ss : List Selection} {ts : Toks} (h : Selects (.many ss) ts) :
    ∃ p t r, ts = (p, t) :: r ∧ (t = .dots ∨ ∃ n, t = .name n) := by
  cases h with
  | last h => exact sel_head h
  | more h _ =>
    obtain ⟨p, t, r, rfl, ht⟩ := sel_head h
    exact ⟨p, t, _, rfl, ht⟩

/-- What the parser does with selections. -/
def ReadsSel : SelPiece → Toks → Prop
  | .one s, ts => ∀ n rest, ts.length ≤ n → Follows rest → ∃ h r, parseSelHead (ts ++ rest) = some (h, r) ∧
      finishSel (parseSelections n) h r = some (s, rest)
  | .many ss, ts => ∀ n p rest, ts.length < n → parseSelections n (ts ++ (p, .punct '}') :: rest) = some (ss, rest)

theorem nextPos_of_head {q p pos : Pos} {xs ys : Toks} {t : GTok}
    (h : (xs ++ [(p, t)]).head?.map Prod.fst = some pos) : nextPos q (xs ++ (p, t) :: ys) = pos := by
  cases xs with
  | nil => simpa [nextPos] using h
  | cons x xs => simpa [nextPos] using h

theorem head_of_nextPos (q p : Pos) (xs ys : Toks) (t : GTok) :
    (xs ++ [(p, t)]).head?.map Prod.fst = some (nextPos q (xs ++ (p, t) :: ys)) := by
  cases xs with
  | nil => rfl
  | cons x xs => rfl

theorem selections_complete {x : SelPiece} {ts : Toks} (h : Selects x ts) : ReadsSel x ts := by
  induction h with
  | field hn ha hd =>
    rename_i pos al name args dirs ns as ds
    intro n rest _ hf
    refine ⟨.field pos al name args dirs, rest, ?_, ?_⟩
    · rw [List.append_assoc, List.append_assoc]
      exact fieldHead_complete hn ha hd hf.colon hf.paren hf.at_
    · rw [finishSel, eat_none hf.brace]
  | fieldWith hn ha hd _ ih =>
    rename_i pos p p' al name args dirs items ns as ds ts _
    intro n rest hlen _
    refine ⟨.field pos al name args dirs, (p, .punct '{') :: (ts ++ (p', .punct '}') :: rest), ?_, ?_⟩
    · have := fieldHead_complete hn ha hd (rest := (p, .punct '{') :: (ts ++ (p', .punct '}') :: rest))
        (notNext_of_ne (by simp) _ _) (notNext_of_ne (by simp) _ _) (notNext_of_ne (by simp) _ _)
      rw [← this]
      simp
    · rw [finishSel, eat_here]
      simp only
      rw [ih n p' rest (by simp at hlen; omega)]
      rfl
  | «inline» hc hd hpos _ ih =>
    rename_i pos dots p p' cond dirs items cs ds ts _
    intro n rest hlen _
    refine ⟨.inline pos cond dirs, (p, .punct '{') :: (ts ++ (p', .punct '}') :: rest), ?_, ?_⟩
    · have hds : ∀ k, ds.length < k → parseDirectives k (ds ++ (p, .punct '{') :: (ts ++ (p', .punct '}') :: rest)) =
          some (dirs, (p, .punct '{') :: (ts ++ (p', .punct '}') :: rest)) :=
        directives_complete hd (notNext_of_ne (by simp) _ _) (notNext_of_ne (by simp) _ _)
      rw [List.cons_append, parseSelHead]
      have e : cs ++ (ds ++ (p, GTok.punct '{') :: (ts ++ [(p', .punct '}')])) ++ rest =
          cs ++ (ds ++ (p, .punct '{') :: (ts ++ (p', .punct '}') :: rest)) := by simp
      rw [← List.append_assoc] at hpos
      have hnext : nextPos dots (cs ++ (ds ++ (p, GTok.punct '{') :: (ts ++ (p', .punct '}') :: rest))) = pos := by
        rw [← List.append_assoc]
        exact nextPos_of_head hpos
      rw [e, hnext]
      unfold parseDotsHead
      cases hc with
      | none =>
        have hno : eatName (ds ++ (p, GTok.punct '{') :: (ts ++ (p', .punct '}') :: rest)) = none := by
          cases hd <;> rfl
        rw [List.nil_append, hno]
        simp only
        rw [hds _ (by simp; omega)]
      | on =>
        simp only [List.cons_append, List.nil_append, eatName]
        rw [if_pos (by trivial)]
        rw [hds _ (by simp; omega)]
    · rw [finishSel, eat_here]
      simp only
      rw [ih n p' rest (by simp at hlen; omega)]
      rfl
  | spread hne hd =>
    rename_i pos dots name dirs ds
    intro n rest hlen hf
    refine ⟨.spread pos name dirs, rest, ?_, rfl⟩
    rw [List.cons_append, List.cons_append, parseSelHead, nextPos]
    unfold parseDotsHead
    simp only [eatName]
    rw [if_neg hne, directives_complete hd hf.at_ hf.paren _ (by simp; omega)]
  | last hs ih =>
    intro n p rest hlen
    obtain ⟨n, rfl⟩ : ∃ m, n = m + 1 := ⟨n - 1, by omega⟩
    obtain ⟨h, r, h1, h2⟩ := ih n ((p, .punct '}') :: rest) (by omega) (follows_of (by simp) _ _)
    rw [parseSelections, h1]
    simp only
    rw [h2]
    simp only
    rw [eat_here]
  | more hs hss ih ih' =>
    rename_i s ss ts rest₀
    intro n p rest hlen
    obtain ⟨n, rfl⟩ : ∃ m, n = m + 1 := ⟨n - 1, by omega⟩
    obtain ⟨p₁, t₁, r₁, rfl, _⟩ := sel_head hs
    obtain ⟨p₂, t₂, r₂, rfl, ht⟩ := sels_head hss
    simp only [List.cons_append, List.length_cons, List.length_append] at hlen
    have hno : t₂ ≠ .punct ':' ∧ t₂ ≠ .punct '(' ∧ t₂ ≠ .punct '@' ∧ t₂ ≠ .punct '{' ∧ t₂ ≠ .punct '}' := by
      rcases ht with rfl | ⟨n, rfl⟩ <;> simp
    obtain ⟨h, r, h1, h2⟩ := ih n ((p₂, t₂) :: r₂ ++ (p, .punct '}') :: rest) (by simp only [List.length_cons]; omega)
      (follows_of ⟨hno.1, hno.2.1, hno.2.2.1, hno.2.2.2.1⟩ _ _)
    rw [parseSelections, List.append_assoc, h1]
    simp only
    rw [h2]
    simp only
    rw [List.cons_append, eat_none (notNext_of_ne hno.2.2.2.2 _ _)]
    simp only
    rw [← List.cons_append]
    rw [ih' n p rest (by simp only [List.length_cons]; omega)]
    rfl

/-- How a selection begins, in tokens, and what follows. -/
inductive HeadText : SelHead → Toks → Toks → Prop where
  | field {pos : Pos} {al : Option String} {n : String} {args : List (String × Value)} {dirs : List Directive}
      {ns as ds r : Toks} : IsFieldName pos al n ns → IsArguments args as → IsDirectives dirs ds →
      HeadText (.field pos al n args dirs) (ns ++ (as ++ ds)) r
  | inline {dots : Pos} {cond : Option String} {dirs : List Directive} {cs ds r : Toks} : IsCondition cond cs →
      IsDirectives dirs ds → HeadText (.inline (nextPos dots ((cs ++ ds) ++ r)) cond dirs) ((dots, .dots) :: (cs ++ ds)) r
  | spread {pos dots : Pos} {n : String} {dirs : List Directive} {ds r : Toks} : n ≠ "on" → IsDirectives dirs ds →
      HeadText (.spread pos n dirs) ((dots, .dots) :: (pos, .name n) :: ds) r

theorem selHead_sound {cs r : Toks} {h : SelHead} (hp : parseSelHead cs = some (h, r)) :
    ∃ ts, HeadText h ts r ∧ cs = ts ++ r := by
  unfold parseSelHead at hp
  split at hp
  · rename_i pos s r₀
    unfold parseFieldHead at hp
    split at hp
    · cases hp
    · rename_i al name r₁ hn
      split at hp
      · cases hp
      · rename_i args r₂ ha
        split at hp
        · cases hp
        · rename_i dirs r₃ hd
          cases hp
          obtain ⟨as, k1, rfl⟩ := arguments_sound ha
          obtain ⟨ds, k2, rfl⟩ := directives_sound _ hd
          unfold parseFieldName at hn
          split at hn
          · cases hn
            exact ⟨_, .field .plain k1 k2, by simp⟩
          · rename_i r₄ he
            obtain ⟨p, rfl⟩ := eat_sound he
            split at hn
            · cases hn
            · rename_i n' r₅ hnn
              obtain ⟨p', rfl⟩ := eatName_sound hnn
              cases hn
              exact ⟨_, .field (.aliased (p := p) (p' := p')) k1 k2, by simp⟩
  · rename_i pos r₀
    unfold parseDotsHead at hp
    split at hp
    · split at hp
      · cases hp
      · rename_i dirs r₁ hd
        cases hp
        obtain ⟨ds, k2, rfl⟩ := directives_sound _ hd
        exact ⟨_, .inline (cs := []) .none k2, by simp⟩
    · rename_i n r₁ hn
      obtain ⟨p, rfl⟩ := eatName_sound hn
      split at hp
      · rename_i e
        subst e
        split at hp
        · cases hp
        · rename_i c r₂ hc
          obtain ⟨p', rfl⟩ := eatName_sound hc
          split at hp
          · cases hp
          · rename_i dirs r₃ hd
            cases hp
            obtain ⟨ds, k2, rfl⟩ := directives_sound _ hd
            exact ⟨_, .inline (dots := pos) (r := r) (.on (p := p) (p' := p')) k2, by simp⟩
      · rename_i hne
        split at hp
        · cases hp
        · rename_i dirs r₃ hd
          cases hp
          obtain ⟨ds, k2, rfl⟩ := directives_sound _ hd
          exact ⟨_, .spread (pos := p) (dots := pos) hne k2, by simp⟩
  · cases hp

theorem selections_sound : ∀ (n : Nat) {cs r : Toks} {ss : List Selection}, parseSelections n cs = some (ss, r) →
    ∃ ts p, Selects (.many ss) ts ∧ cs = ts ++ (p, .punct '}') :: r
  | 0, cs, r, ss, h => by cases h
  | n + 1, cs, r, ss, h => by
    rw [parseSelections] at h
    split at h
    · cases h
    · rename_i hd r₁ hh
      obtain ⟨ts, k1, rfl⟩ := selHead_sound hh
      split at h
      · cases h
      · rename_i s r₂ hf
        have hone : ∃ ts', Selects (.one s) ts' ∧ ts ++ r₁ = ts' ++ r₂ := by
          cases k1 with
          | field a b c =>
            rw [finishSel] at hf
            split at hf
            · cases hf
              exact ⟨_, .field a b c, rfl⟩
            · rename_i r₃ he
              obtain ⟨p, rfl⟩ := eat_sound he
              rw [Option.map_eq_some_iff] at hf
              obtain ⟨⟨ss', r₄⟩, hf, e⟩ := hf
              cases e
              obtain ⟨ts', p', k2, rfl⟩ := selections_sound n hf
              exact ⟨_, .fieldWith (p := p) (p' := p') a b c k2, by simp⟩
          | «inline» a b =>
            rename_i dots _ _ _ _
            rw [finishSel] at hf
            split at hf
            · cases hf
            · rename_i r₃ he
              obtain ⟨p, rfl⟩ := eat_sound he
              rw [Option.map_eq_some_iff] at hf
              obtain ⟨⟨ss', r₄⟩, hf, e⟩ := hf
              cases e
              obtain ⟨ts', p', k2, rfl⟩ := selections_sound n hf
              exact ⟨_, .inline (dots := dots) (p := p) (p' := p') a b
                (by rw [← List.append_assoc]; exact head_of_nextPos _ _ _ _ _) k2, by simp⟩
          | spread a b =>
            cases hf
            exact ⟨_, .spread a b, rfl⟩
        obtain ⟨ts', k2, e⟩ := hone
        rw [e]
        split at h
        · rename_i r₃ he
          obtain ⟨p, rfl⟩ := eat_sound he
          cases h
          exact ⟨ts', p, .last k2, rfl⟩
        · rw [Option.map_eq_some_iff] at h
          obtain ⟨⟨ss', r₄⟩, h, e'⟩ := h
          cases e'
          obtain ⟨ts'', p, k3, rfl⟩ := selections_sound n h
          exact ⟨_, p, .more k2 k3, by simp⟩

theorem selectionSet_complete {pos : Pos} {items : List Selection} {ts : Toks} (h : IsSelectionSet pos items ts)
    (rest : Toks) : parseSelectionSet (ts ++ rest) = some (items, rest) := by
  obtain ⟨p', inner, h, rfl⟩ := h
  unfold parseSelectionSet
  rw [List.cons_append, eat_here]
  simp only
  have := selections_complete h ((inner ++ [(p', GTok.punct '}')] ++ rest).length + 1) p' rest (by simp; omega)
  rw [← this]
  simp

theorem selectionSet_sound {cs r : Toks} {items : List Selection} (h : parseSelectionSet cs = some (items, r)) :
    ∃ pos ts, IsSelectionSet pos items ts ∧ cs = ts ++ r := by
  unfold parseSelectionSet at h
  split at h
  · cases h
  · rename_i r₁ he
    obtain ⟨p, rfl⟩ := eat_sound he
    obtain ⟨ts, p', h1, rfl⟩ := selections_sound _ h
    exact ⟨p, _, ⟨p', ts, h1, rfl⟩, by simp⟩

/-! ### Variables -/

/-- A type and what follows it: an exclamation mark belongs to it unless it has one. -/
def bangRest (t : VarTy) (rest : Toks) : VarTy × Toks :=
  match t with
  | .nonNull u => (.nonNull u, rest)
  | t => parseBang t rest

theorem bangRest_plain (t : VarTy) {rest : Toks} (h : NotNext (.punct '!') rest) : bangRest t rest = (t, rest) := by
  unfold bangRest
  split
  · rfl
  · unfold parseBang
    rw [eat_none h]

theorem bangRest_open {t : VarTy} (h : ∀ u, t ≠ .nonNull u) (rest : Toks) : bangRest t rest = parseBang t rest := by
  unfold bangRest
  split
  · exact absurd rfl (h _)
  · rfl

theorem type_complete {t : VarTy} {ts : Toks} (h : IsVarTy t ts) :
    ∀ n rest, ts.length ≤ n → parseType n (ts ++ rest) = some (bangRest t rest) := by
  induction h with
  | named =>
    intro n rest hn
    obtain ⟨n, rfl⟩ : ∃ m, n = m + 1 := ⟨n - 1, by simp at hn; omega⟩
    rfl
  | list _ ih =>
    rename_i p p' t ts _
    intro n rest hn
    simp only [List.length_cons, List.length_append, List.length_nil] at hn
    obtain ⟨n, rfl⟩ : ∃ m, n = m + 1 := ⟨n - 1, by omega⟩
    rw [List.cons_append, parseType]
    simp only [eatName]
    rw [eat_here]
    simp only
    rw [List.append_assoc, List.cons_append, List.nil_append, ih n _ (by omega),
      bangRest_plain _ (notNext_of_ne (by simp) _ _)]
    simp only
    rw [eat_here]
    rfl
  | nonNull _ hn ih =>
    rename_i p t ts _
    intro n rest hlen
    simp only [List.length_append, List.length_cons, List.length_nil] at hlen
    rw [List.append_assoc, ih n _ (by omega), bangRest_open hn, List.cons_append, List.nil_append, parseBang, eat_here]
    rfl

theorem bang_sound {t t' : VarTy} {ts cs r : Toks} (h : IsVarTy t ts) (hn : ∀ u, t ≠ .nonNull u)
    (hb : parseBang t cs = (t', r)) : ∃ ts', IsVarTy t' ts' ∧ ts ++ cs = ts' ++ r := by
  unfold parseBang at hb
  split at hb
  · cases hb
    exact ⟨ts, h, rfl⟩
  · rename_i r' he
    obtain ⟨p, rfl⟩ := eat_sound he
    cases hb
    exact ⟨_, .nonNull (p := p) h hn, by simp⟩

theorem type_sound : ∀ (n : Nat) {t : VarTy} {cs r : Toks}, parseType n cs = some (t, r) →
    ∃ ts, IsVarTy t ts ∧ cs = ts ++ r
  | 0, t, cs, r, h => by cases h
  | n + 1, t, cs, r, h => by
    rw [parseType] at h
    split at h
    · rename_i s r₁ hn
      obtain ⟨p, rfl⟩ := eatName_sound hn
      exact bang_sound (.named (p := p) (s := s)) (by simp) (Option.some.inj h)
    · split at h
      · cases h
      · rename_i r₁ he
        obtain ⟨p, rfl⟩ := eat_sound he
        split at h
        · cases h
        · rename_i t₁ r₂ ht
          obtain ⟨ts, k1, rfl⟩ := type_sound n ht
          rw [Option.map_eq_some_iff] at h
          obtain ⟨r₃, h, e⟩ := h
          obtain ⟨p', rfl⟩ := eat_sound h
          obtain ⟨ts', k2, k3⟩ := bang_sound (.list (p := p) (p' := p') k1) (by simp) e
          exact ⟨ts', k2, by rw [← k3]; simp⟩

theorem default_complete {d : Option Value} {ts : Toks} (h : IsDefault d ts) {rest : Toks}
    (hr : NotNext (.punct '=') rest) : parseDefault (ts ++ rest) = some (d, rest) := by
  unfold parseDefault
  cases h with
  | none => rw [List.nil_append, eat_none hr]
  | some hv =>
    rename_i p v ts
    rw [List.cons_append, eat_here]
    simp only
    rw [value_complete hv ((ts ++ rest).length + 1) rest (by simp; omega)]
    rfl

theorem default_sound {d : Option Value} {cs r : Toks} (h : parseDefault cs = some (d, r)) :
    ∃ ts, IsDefault d ts ∧ cs = ts ++ r := by
  unfold parseDefault at h
  split at h
  · cases h
    exact ⟨[], .none, rfl⟩
  · rename_i r₁ he
    obtain ⟨p, rfl⟩ := eat_sound he
    rw [Option.map_eq_some_iff] at h
    obtain ⟨⟨v, r₂⟩, h, e⟩ := h
    cases e
    obtain ⟨ts, h1, rfl⟩ := value_sound (inside_sound _) h
    exact ⟨_, .some (p := p) h1, rfl⟩

theorem default_head {d : Option Value} {ts : Toks} (h : IsDefault d ts) {t : GTok} (ht : t ≠ .punct '=')
    {rest : Toks} (hr : NotNext t rest) : NotNext t (ts ++ rest) := by
  cases h with
  | none => exact hr
  | some _ => exact notNext_of_ne (fun e => ht e.symm) _ _

theorem varDef_complete {v : VarDef} {ts : Toks} (h : IsVarDef v ts) {rest : Toks} (h1 : NotNext (.punct '=') rest)
    (h2 : NotNext (.punct '!') rest) : ∃ ts', ts = (v.pos, .punct '$') :: ts' ∧
      parseVarDef v.pos (ts' ++ rest) = some (v, rest) := by
  cases h with
  | mk ht hd =>
    rename_i pos p p' n t dflt ts ds
    refine ⟨_, rfl, ?_⟩
    unfold parseVarDef
    simp only [List.cons_append, eatName]
    rw [eat_here]
    simp only
    rw [List.append_assoc, type_complete ht _ _ (by simp; omega), bangRest_plain _ (default_head hd (by simp) h2)]
    simp only
    rw [default_complete hd h1]
    rfl

theorem varDef_sound {pos : Pos} {v : VarDef} {cs r : Toks} (h : parseVarDef pos cs = some (v, r)) :
    ∃ ts, IsVarDef v ((pos, .punct '$') :: ts) ∧ cs = ts ++ r := by
  unfold parseVarDef at h
  split at h
  · cases h
  · rename_i name r₁ hn
    obtain ⟨p, rfl⟩ := eatName_sound hn
    split at h
    · cases h
    · rename_i r₂ he
      obtain ⟨p', rfl⟩ := eat_sound he
      split at h
      · cases h
      · rename_i t r₃ ht
        obtain ⟨ts, k1, rfl⟩ := type_sound _ ht
        rw [Option.map_eq_some_iff] at h
        obtain ⟨⟨d, r₄⟩, h, e⟩ := h
        cases e
        obtain ⟨ds, k2, rfl⟩ := default_sound h
        exact ⟨_, .mk (p := p) (p' := p') k1 k2, by simp⟩

theorem varDef_head {v : VarDef} {ts : Toks} (h : IsVarDef v ts) : ∃ p r, ts = (p, .punct '$') :: r := by
  cases h
  exact ⟨_, _, rfl⟩

theorem varDefs_head {vs : List VarDef} {ts : Toks} (h : IsVarDefs vs ts) : ∃ p r, ts = (p, .punct '$') :: r := by
  cases h with
  | last h => exact varDef_head h
  | more h _ =>
    obtain ⟨p, r, rfl⟩ := varDef_head h
    exact ⟨p, _, rfl⟩

theorem varDefs_complete {vs : List VarDef} {ts : Toks} (h : IsVarDefs vs ts) :
    ∀ n p rest, ts.length ≤ n → parseVarDefs n (ts ++ (p, .punct ')') :: rest) = some (vs, rest) := by
  induction h with
  | last hv =>
    intro n p rest hn
    obtain ⟨ts', rfl, h1⟩ := varDef_complete hv (rest := (p, .punct ')') :: rest) (notNext_of_ne (by simp) _ _)
      (notNext_of_ne (by simp) _ _)
    obtain ⟨n, rfl⟩ : ∃ m, n = m + 1 := ⟨n - 1, by simp at hn; omega⟩
    rw [List.cons_append, parseVarDefs, if_pos rfl, h1]
    simp only
    rw [eat_here]
  | more hv hvs ih =>
    rename_i v vs ts rest₀
    intro n p rest hn
    obtain ⟨p₁, r₁, rfl⟩ := varDefs_head hvs
    obtain ⟨ts', rfl, h1⟩ := varDef_complete hv (rest := (p₁, .punct '$') :: r₁ ++ (p, .punct ')') :: rest)
      (notNext_of_ne (by simp) _ _) (notNext_of_ne (by simp) _ _)
    simp only [List.cons_append, List.length_cons, List.length_append] at hn
    obtain ⟨n, rfl⟩ : ∃ m, n = m + 1 := ⟨n - 1, by omega⟩
    rw [List.cons_append, List.cons_append, parseVarDefs, if_pos rfl, List.append_assoc, h1]
    simp only
    rw [List.cons_append, eat_none (notNext_of_ne (by simp) _ _)]
    simp only
    rw [← List.cons_append, ih n p rest (by simp only [List.length_cons]; omega)]
    rfl

theorem varDefs_sound : ∀ (n : Nat) {vs : List VarDef} {cs r : Toks}, parseVarDefs n cs = some (vs, r) →
    ∃ ts p, IsVarDefs vs ts ∧ cs = ts ++ (p, .punct ')') :: r
  | 0, vs, cs, r, h => by
    unfold parseVarDefs at h
    cases h
  | n + 1, vs, cs, r, h => by
    unfold parseVarDefs at h
    split at h
    · rename_i n' pos c r₁ en
      cases en
      split at h
      · rename_i hc
        subst hc
        split at h
        · cases h
        · rename_i v r₂ hv
          obtain ⟨ts, k1, rfl⟩ := varDef_sound hv
          split at h
          · rename_i r₃ he
            obtain ⟨p, rfl⟩ := eat_sound he
            cases h
            exact ⟨_, p, .last k1, by simp⟩
          · rw [Option.map_eq_some_iff] at h
            obtain ⟨⟨vs', r₄⟩, h, e⟩ := h
            cases e
            obtain ⟨ts', p, k2, rfl⟩ := varDefs_sound n h
            exact ⟨_, p, .more k1 k2, by simp⟩
      · cases h
    · cases h

theorem variables_complete {vs : List VarDef} {ts : Toks} (h : IsVariables vs ts) {rest : Toks}
    (hr : NotNext (.punct '(') rest) : parseVariables (ts ++ rest) = some (vs, rest) := by
  unfold parseVariables
  cases h with
  | none => rw [List.nil_append, eat_none hr]
  | some hv =>
    rename_i p p' ts
    rw [List.cons_append, eat_here]
    simp only
    rw [List.append_assoc, List.cons_append, List.nil_append, varDefs_complete hv _ _ _ (by simp; omega)]

theorem variables_sound {vs : List VarDef} {cs r : Toks} (h : parseVariables cs = some (vs, r)) :
    ∃ ts, IsVariables vs ts ∧ cs = ts ++ r := by
  unfold parseVariables at h
  split at h
  · cases h
    exact ⟨[], .none, rfl⟩
  · rename_i r₁ he
    obtain ⟨p, rfl⟩ := eat_sound he
    obtain ⟨ts, p', h1, rfl⟩ := varDefs_sound _ h
    exact ⟨_, .some (p := p) (p' := p') h1, by simp⟩

theorem variables_head {vs : List VarDef} {ts : Toks} (h : IsVariables vs ts) {t : GTok} (ht : t ≠ .punct '(')
    {rest : Toks} (hr : NotNext t rest) : NotNext t (ts ++ rest) := by
  cases h with
  | none => exact hr
  | some _ => exact notNext_of_ne (fun e => ht e.symm) _ _

/-! ### Definitions -/

theorem eatName_none {ts : Toks} (h : ∀ n, NotNext (.name n) ts) : eatName ts = none := by
  unfold eatName
  split
  · exact absurd rfl (h _ _ _)
  · rfl

theorem opName_complete {name : Option String} {ts : Toks} (h : IsOpName name ts) {rest : Toks}
    (hr : ∀ n, NotNext (.name n) rest) : parseOpName (ts ++ rest) = (name, rest) := by
  unfold parseOpName
  cases h with
  | none => rw [List.nil_append, eatName_none hr]
  | some => rfl

theorem opName_sound (cs : Toks) : ∃ ts, IsOpName (parseOpName cs).1 ts ∧ cs = ts ++ (parseOpName cs).2 := by
  unfold parseOpName
  split
  · exact ⟨[], .none, rfl⟩
  · rename_i s r h
    obtain ⟨p, rfl⟩ := eatName_sound h
    exact ⟨_, .some (p := p), rfl⟩

theorem set_head {pos : Pos} {items : List Selection} {ts : Toks} (h : IsSelectionSet pos items ts) {t : GTok}
    (ht : t ≠ .punct '{') (rest : Toks) : NotNext t (ts ++ rest) := by
  obtain ⟨_, _, _, rfl⟩ := h
  exact notNext_of_ne (fun e => ht e.symm) _ _

theorem operation_complete {kw : OpKeyword} {pos p : Pos} {name : Option String} {vars : List VarDef}
    {dirs : List Directive} {items : List Selection} {ns vs ds ts : Toks} (hn : IsOpName name ns)
    (hv : IsVariables vars vs) (hd : IsDirectives dirs ds) (hs : IsSelectionSet p items ts) (rest : Toks) :
    parseOperation kw pos (ns ++ (vs ++ (ds ++ (ts ++ rest)))) = some (.operation kw pos name vars dirs items, rest) := by
  have hname := opName_complete hn (rest := vs ++ (ds ++ (ts ++ rest)))
    (fun n => variables_head hv (by simp) (dirs_head hd (by simp) (set_head hs (by simp) rest)))
  unfold parseOperation
  rw [hname]
  simp only
  rw [variables_complete hv (dirs_head hd (by simp) (set_head hs (by simp) rest))]
  simp only
  rw [directives_complete hd (set_head hs (by simp) rest) (set_head hs (by simp) rest) _ (by simp; omega)]
  simp only
  rw [selectionSet_complete hs rest]
  rfl

theorem operation_sound {kw : OpKeyword} {pos : Pos} {d : Definition} {cs r : Toks}
    (h : parseOperation kw pos cs = some (d, r)) :
    ∃ ts, IsDefinition d ((pos, .name (keyword kw)) :: ts) ∧ cs = ts ++ r := by
  unfold parseOperation at h
  obtain ⟨ns, hn, e⟩ := opName_sound cs
  split at h
  · cases h
  · rename_i vars r₁ hv
    obtain ⟨vs, k1, e₁⟩ := variables_sound hv
    split at h
    · cases h
    · rename_i dirs r₂ hd
      obtain ⟨ds, k2, rfl⟩ := directives_sound _ hd
      rw [Option.map_eq_some_iff] at h
      obtain ⟨⟨items, r₃⟩, h, e₃⟩ := h
      cases e₃
      obtain ⟨p, ts, k3, rfl⟩ := selectionSet_sound h
      refine ⟨_, .operation hn k1 k2 k3, ?_⟩
      rw [e, e₁]
      simp

theorem definition_complete {d : Definition} {ts : Toks} (h : IsDefinition d ts) (rest : Toks) :
    parseDefinition (ts ++ rest) = some (d, rest) := by
  cases h with
  | selectionSet hs =>
    have := selectionSet_complete hs rest
    obtain ⟨p', inner, hi, rfl⟩ := hs
    rw [List.cons_append] at this ⊢
    rw [parseDefinition, this]
    rfl
  | operation hn hv hd hs =>
    rename_i kw pos p name vars dirs items ns vs ds ts
    have := operation_complete (kw := kw) (pos := pos) hn hv hd hs rest
    rw [List.cons_append, List.append_assoc, List.append_assoc, List.append_assoc]
    cases kw with
    | query => rw [keyword, parseDefinition, if_pos rfl, this]
    | mutation => rw [keyword, parseDefinition, if_neg (by decide), if_pos rfl, this]
    | subscription => rw [keyword, parseDefinition, if_neg (by decide), if_neg (by decide), if_pos rfl, this]
  | fragment hd hs =>
    simp only [List.cons_append]
    rw [parseDefinition, if_neg (by decide), if_neg (by decide), if_neg (by decide), if_pos rfl, parseFragment]
    simp only [eatName]
    rw [eat_here]
    simp only
    rw [List.append_assoc,
      directives_complete hd (set_head hs (by simp) rest) (set_head hs (by simp) rest) _ (by simp; omega)]
    simp only
    rw [selectionSet_complete hs rest]
    rfl

theorem definition_sound {d : Definition} {cs r : Toks} (h : parseDefinition cs = some (d, r)) :
    ∃ ts, IsDefinition d ts ∧ cs = ts ++ r := by
  unfold parseDefinition at h
  split at h
  · rename_i pos s r₀
    split at h
    · rename_i e
      subst e
      obtain ⟨ts, h1, rfl⟩ := operation_sound h
      exact ⟨_, h1, rfl⟩
    · split at h
      · rename_i e
        subst e
        obtain ⟨ts, h1, rfl⟩ := operation_sound h
        exact ⟨_, h1, rfl⟩
      · split at h
        · rename_i e
          subst e
          obtain ⟨ts, h1, rfl⟩ := operation_sound h
          exact ⟨_, h1, rfl⟩
        · split at h
          · rename_i e
            subst e
            unfold parseFragment at h
            split at h
            · cases h
            · rename_i n r₁ hn
              obtain ⟨p, rfl⟩ := eatName_sound hn
              split at h
              · cases h
              · rename_i r₂ he
                obtain ⟨p', rfl⟩ := eat_sound he
                split at h
                · cases h
                · rename_i c r₃ hc
                  obtain ⟨p'', rfl⟩ := eatName_sound hc
                  split at h
                  · cases h
                  · rename_i dirs r₄ hd
                    obtain ⟨ds, k2, rfl⟩ := directives_sound _ hd
                    rw [Option.map_eq_some_iff] at h
                    obtain ⟨⟨items, r₅⟩, h, e₃⟩ := h
                    cases e₃
                    obtain ⟨q, ts, k3, rfl⟩ := selectionSet_sound h
                    exact ⟨_, .fragment (p := p) (p' := p') (p'' := p'') k2 k3, by simp⟩
          · cases h
  · rename_i pos c r₀
    rw [Option.map_eq_some_iff] at h
    obtain ⟨⟨items, r₁⟩, h, e⟩ := h
    cases e
    obtain ⟨q, ts, k3, e⟩ := selectionSet_sound h
    have hq : q = pos := by
      obtain ⟨_, _, _, rfl⟩ := k3
      simp only [List.cons_append, List.cons.injEq, Prod.mk.injEq] at e
      exact e.1.1.symm
    subst hq
    exact ⟨ts, .selectionSet k3, e⟩
  · cases h

theorem definition_nonempty {d : Definition} {ts : Toks} (h : IsDefinition d ts) : ts ≠ [] := by
  cases h with
  | selectionSet hs =>
    obtain ⟨_, _, _, rfl⟩ := hs
    simp
  | operation _ _ _ _ => simp
  | fragment _ _ => simp

theorem document_nonempty {ds : Document} {ts : Toks} (h : IsDocument ds ts) : ts ≠ [] := by
  cases h with
  | last h => exact definition_nonempty h
  | more h _ =>
    have := definition_nonempty h
    simp [this]

theorem document_complete {ds : Document} {ts : Toks} (h : IsDocument ds ts) :
    ∀ n, ts.length ≤ n → parseDefinitions n ts = some ds := by
  induction h with
  | last hd =>
    intro n hn
    have hne := definition_nonempty hd
    obtain ⟨n, rfl⟩ : ∃ m, n = m + 1 := ⟨n - 1, by have := List.length_pos_iff.2 hne; omega⟩
    have := definition_complete hd []
    rw [List.append_nil] at this
    rw [parseDefinitions, this]
    simp
  | more hd hds ih =>
    intro n hn
    have hne := List.length_pos_iff.2 (definition_nonempty hd)
    rw [List.length_append] at hn
    obtain ⟨n, rfl⟩ : ∃ m, n = m + 1 := ⟨n - 1, by omega⟩
    rw [parseDefinitions, definition_complete hd]
    simp only
    rw [if_neg (document_nonempty hds), ih n (by omega)]
    rfl

theorem document_sound : ∀ (n : Nat) {ds : Document} {ts : Toks}, parseDefinitions n ts = some ds → IsDocument ds ts
  | 0, ds, ts, h => by cases h
  | n + 1, ds, ts, h => by
    rw [parseDefinitions] at h
    split at h
    · cases h
    · rename_i d r hd
      obtain ⟨ts', h1, rfl⟩ := definition_sound hd
      split at h
      · rename_i e
        subst e
        cases h
        rw [List.append_nil]
        exact .last h1
      · rw [Option.map_eq_some_iff] at h
        obtain ⟨ds', h, e⟩ := h
        cases e
        exact .more h1 (document_sound n h)

end Qlc
