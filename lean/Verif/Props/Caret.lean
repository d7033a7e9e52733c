import Verif.Spec.Caret
import Verif.Props.GraphqlText
import Verif.Props.Diagnostics
/-
C132: what is printed about a part of a document marks the word that this part begins with.
-/
set_option autoImplicit false

namespace Qlc
open Spec

/-! ### Where tokens stand in the text -/

theorem token_at {place : List Char → Pos} {text : List Char} {ts : Toks} (h : TokensOf place text ts) {pos : Pos} {t : GTok}
    (hm : (pos, t) ∈ ts) : ∃ pre w rest, text = pre ++ (w ++ rest) ∧ TokenText t w ∧ pos = place (w ++ rest) := by
  induction h with
  | done => cases hm
  | more _ ht _ _ ih =>
    rename_i g w rest t' ts' _ _ _
    rcases List.mem_cons.1 hm with e | hm
    · cases e
      exact ⟨g, w, rest, rfl, ht, rfl⟩
    · obtain ⟨pre, w', rest', rfl, h1, h2⟩ := ih hm
      exact ⟨g ++ (w ++ pre), w', rest', by simp, h1, h2⟩

/-- A word on one line. -/
def OnOneLine (w : List Char) : Prop := w ≠ [] ∧ '\n' ∉ w ∧ '\r' ∉ w

theorem nameText {s : String} {w : List Char} (h : TokenText (.name s) w) : w = s.toList ∧ OnOneLine w := by
  cases h with
  | name hc hcs =>
    rename_i c cs
    have h1 : ∀ d ∈ c :: cs, NameStart d ∨ Digit d := by
      intro d hd
      rcases List.mem_cons.1 hd with rfl | hd
      · exact .inl hc
      · exact hcs d hd
    refine ⟨by simp, by simp, fun h => ?_, fun h => ?_⟩
    · exact absurd (h1 _ h) (by unfold NameStart Digit; decide)
    · exact absurd (h1 _ h) (by unfold NameStart Digit; decide)

theorem punctText {c : Char} {w : List Char} (h : TokenText (.punct c) w) : w = [c] ∧ OnOneLine w := by
  cases h with
  | punct hc =>
    refine ⟨rfl, by simp, fun h => ?_, fun h => ?_⟩ <;>
    · rw [List.mem_singleton] at h
      subst h
      revert hc
      decide

/-- The token that a selection begins with. -/
def openTok : Selection → GTok
  | .field _ al name _ _ _ => .name (al.getD name)
  | .inline _ (some _) _ _ => .name "on"
  | .inline _ none dirs _ => .punct (if dirs = [] then '{' else '@')
  | .spread _ name _ => .name name

theorem openTok_text {s : Selection} {w : List Char} (h : TokenText (openTok s) w) : w = (opening s).toList ∧ OnOneLine w := by
  cases s with
  | field _ al name => exact nameText h
  | spread _ name => exact nameText h
  | «inline» _ cond dirs =>
    cases cond with
    | some C => exact nameText h
    | none =>
      refine ⟨?_, (punctText h).2⟩
      rw [(punctText h).1]
      simp only [opening]
      split <;> rfl

theorem sel_token {s : Selection} {ts : Toks} (h : Selects (.one s) ts) : (standsAt s, openTok s) ∈ ts := by
  cases h with
  | field hn _ _ => cases hn <;> simp [standsAt, openTok]
  | fieldWith hn _ _ _ => cases hn <;> simp [standsAt, openTok]
  | spread _ _ => simp [standsAt, openTok]
  | «inline» hc hd hp _ =>
    cases hc with
    | on =>
      simp at hp
      subst hp
      simp [standsAt, openTok]
    | none =>
      cases hd with
      | nil =>
        simp at hp
        subst hp
        simp [standsAt, openTok]
      | cons _ _ =>
        simp at hp
        subst hp
        simp [standsAt, openTok]

theorem many_mem {x : SelPiece} {ts : Toks} (h : Selects x ts) {items : List Selection} (e : x = .many items) {s : Selection}
    (hs : s ∈ items) : ∃ ts', Selects (.one s) ts' ∧ ∀ y ∈ ts', y ∈ ts := by
  induction h generalizing items with
  | last h _ =>
    cases e
    rw [List.mem_singleton] at hs
    subst hs
    exact ⟨_, h, fun _ h => h⟩
  | more h _ _ ih =>
    cases e
    rcases List.mem_cons.1 hs with rfl | hs
    · exact ⟨_, h, fun y hy => by simp [hy]⟩
    · obtain ⟨ts', h1, h2⟩ := ih rfl hs
      exact ⟨ts', h1, fun y hy => by simp [h2 y hy]⟩
  | field | fieldWith | «inline» | spread => cases e

theorem nothing_written {s : Selection} : ¬ WrittenIn [] s := by
  intro h
  cases h with
  | here h => cases h
  | field h _ => cases h
  | «inline» h _ => cases h

theorem written_token {items : List Selection} {s : Selection} (h : WrittenIn items s) :
    ∀ {ts : Toks}, Selects (.many items) ts → (standsAt s, openTok s) ∈ ts := by
  induction h with
  | here hm =>
    intro ts hs
    obtain ⟨ts', h1, h2⟩ := many_mem hs rfl hm
    exact h2 _ (sel_token h1)
  | field hm hw ih =>
    intro ts hs
    obtain ⟨ts', h1, h2⟩ := many_mem hs rfl hm
    cases h1 with
    | field _ _ _ => exact absurd hw nothing_written
    | fieldWith _ _ _ h1 => exact h2 _ (by simp [ih h1])
  | «inline» hm _ ih =>
    intro ts hs
    obtain ⟨ts', h1, h2⟩ := many_mem hs rfl hm
    cases h1 with
    | «inline» _ _ _ h1 => exact h2 _ (by simp [ih h1])

theorem varDefs_token {vs : List VarDef} {ts : Toks} (h : IsVarDefs vs ts) {v : VarDef} (hv : v ∈ vs) :
    (v.pos, GTok.punct '$') ∈ ts := by
  induction h with
  | last h =>
    rw [List.mem_singleton] at hv
    subst hv
    cases h
    simp
  | more h _ ih =>
    rcases List.mem_cons.1 hv with rfl | hv
    · cases h
      simp
    · simp [ih hv]

theorem marked_token {d : Definition} {ts : Toks} (h : IsDefinition d ts) {pos : Pos} {word : String} (hm : Marked d pos word) :
    ∃ t, (pos, t) ∈ ts ∧ ∀ w, TokenText t w → w = word.toList ∧ OnOneLine w := by
  cases hm with
  | start =>
    cases h with
    | selectionSet h =>
      obtain ⟨p', inner, _, rfl⟩ := h
      exact ⟨.punct '{', by simp [startOf], fun w hw => ⟨by simp [firstWord, (punctText hw).1], (punctText hw).2⟩⟩
    | operation _ _ _ _ =>
      rename_i kw _ _ _ _ _ _ _ _ _ _ _ _ _ _
      refine ⟨.name (keyword kw), by simp [startOf], fun w hw => ?_⟩
      refine ⟨?_, (nameText hw).2⟩
      rw [(nameText hw).1]
      cases kw <;> rfl
    | fragment _ _ => exact ⟨.name "fragment", by simp [startOf], fun w hw => nameText hw⟩
  | «variable» hv =>
    refine ⟨.punct '$', ?_, fun w hw => ⟨by simp [(punctText hw).1], (punctText hw).2⟩⟩
    cases h with
    | selectionSet _ => cases hv
    | fragment _ _ => cases hv
    | operation _ hvs _ _ =>
      cases hvs with
      | none => cases hv
      | some h => simp [varDefs_token h hv]
  | selection hw =>
    refine ⟨_, ?_, fun w hw => openTok_text hw⟩
    cases h with
    | selectionSet h =>
      obtain ⟨p', inner, h, rfl⟩ := h
      simp [written_token hw h]
    | operation _ _ _ h =>
      obtain ⟨p', inner, h, rfl⟩ := h
      simp [written_token hw h]
    | fragment _ h =>
      obtain ⟨p', inner, h, rfl⟩ := h
      simp [written_token hw h]

theorem document_part {ds : Document} {ts : Toks} (h : IsDocument ds ts) {d : Definition} (hd : d ∈ ds) :
    ∃ ts', IsDefinition d ts' ∧ ∀ y ∈ ts', y ∈ ts := by
  induction h with
  | last h =>
    rw [List.mem_singleton] at hd
    subst hd
    exact ⟨_, h, fun _ h => h⟩
  | more h _ ih =>
    rcases List.mem_cons.1 hd with rfl | hd
    · exact ⟨_, h, fun y hy => by simp [hy]⟩
    · obtain ⟨ts', h1, h2⟩ := ih hd
      exact ⟨ts', h1, fun y hy => by simp [h2 y hy]⟩

theorem part_stands (P : ParserSetup) {contents : String} {ds : Document}
    (hp : parseQuery P contents = .ok ds) {d : Definition} (hd : d ∈ ds) {pos : Pos} {word : String} (hm : Marked d pos word) :
    OnOneLine word.toList ∧
    ∃ pre rest, contents.toList = pre ++ (word.toList ++ rest) ∧ pos = P.place contents.toList (word.toList ++ rest) := by
  obtain ⟨ts, h1, _, h2⟩ := (C127_reads_iff P _ _).1 hp
  obtain ⟨ts', h3, h4⟩ := document_part h2 hd
  obtain ⟨t, h5, h6⟩ := marked_token h3 hm
  obtain ⟨pre, w, rest, h7, h8, h9⟩ := token_at h1 (h4 _ h5)
  obtain ⟨rfl, h10⟩ := h6 w h8
  exact ⟨h10, pre, rest, h7, h9⟩

/-- **C132.** Where a part of a document is said to stand, there the text goes on with the word that the part begins
with. -/
theorem C132_where_parts_stand (P : ParserSetup) {contents : String} {ds : Document}
    (hp : parseQuery P contents = .ok ds) {d : Definition} (hd : d ∈ ds) {pos : Pos} {word : String} (hm : Marked d pos word) :
    word ≠ "" ∧
    ∃ pre rest, contents.toList = pre ++ (word.toList ++ rest) ∧ pos = P.place contents.toList (word.toList ++ rest) := by
  obtain ⟨h1, h2⟩ := part_stands P hp hd hm
  refine ⟨?_, h2⟩
  rintro rfl
  exact h1.1 rfl

/-! ### Lines -/

theorem first_newline {l l' r r' : List Char} (h : l ++ '\n' :: r = l' ++ '\n' :: r') (hl : '\n' ∉ l) (hl' : '\n' ∉ l') :
    l = l' ∧ r = r' := by
  induction l generalizing l' with
  | nil =>
    cases l' with
    | nil => simpa using h
    | cons c l' =>
      simp only [List.nil_append, List.cons_append, List.cons.injEq] at h
      exact absurd (h.1 ▸ List.mem_cons_self) hl'
  | cons c l ih =>
    cases l' with
    | nil =>
      simp only [List.nil_append, List.cons_append, List.cons.injEq] at h
      exact absurd (h.1 ▸ List.mem_cons_self) hl
    | cons c' l' =>
      simp only [List.cons_append, List.cons.injEq] at h
      simp only [List.mem_cons, not_or] at hl hl'
      obtain ⟨rfl, rfl⟩ := ih h.2 hl.2 hl'.2
      exact ⟨by rw [h.1], rfl⟩

theorem prefix_before_newline {a l r b : List Char} (h : a ++ b = l ++ '\n' :: r) (ha : '\n' ∉ a) : ∃ m, l = a ++ m := by
  induction a generalizing l with
  | nil => exact ⟨l, rfl⟩
  | cons c a ih =>
    cases l with
    | nil =>
      simp only [List.nil_append, List.cons_append, List.cons.injEq] at h
      exact absurd (h.1 ▸ List.mem_cons_self) ha
    | cons c' l =>
      simp only [List.cons_append, List.cons.injEq] at h
      simp only [List.mem_cons, not_or] at ha
      obtain ⟨m, rfl⟩ := ih h.2 ha.2
      exact ⟨m, by rw [h.1]; rfl⟩

theorem lines_above {above : List Char} (h : above = [] ∨ ∃ a, above = a ++ ['\n']) (hne : above ≠ []) :
    ∃ l above', above = l ++ '\n' :: above' ∧ '\n' ∉ l ∧ (above' = [] ∨ ∃ a, above' = a ++ ['\n']) := by
  rcases h with rfl | ⟨a, rfl⟩
  · exact absurd rfl hne
  · clear hne
    induction a with
    | nil => exact ⟨[], [], rfl, by simp, .inl rfl⟩
    | cons c a ih =>
      by_cases hc : c = '\n'
      · subst hc
        exact ⟨[], a ++ ['\n'], rfl, by simp, .inr ⟨a, rfl⟩⟩
      · obtain ⟨l, above', h1, h2, h3⟩ := ih
        refine ⟨c :: l, above', by rw [List.cons_append, h1]; rfl, ?_, h3⟩
        simp only [List.mem_cons, not_or]
        exact ⟨fun h => hc h.symm, h2⟩

theorem word_in_line {text : List Char} {ls : List (List Char)} (hl : IsLines text ls) {above start w rest : List Char}
    (e : text = above ++ (start ++ (w ++ rest))) (hs : '\n' ∉ start) (hw : OnOneLine w)
    (ha : above = [] ∨ ∃ a, above = a ++ ['\n']) : ∃ more, ls[above.count '\n']? = some (start ++ (w ++ more)) := by
  obtain ⟨hw0, hwn, hwr⟩ := hw
  have hsw : '\n' ∉ start ++ w := by simp [hs, hwn]
  induction hl generalizing above with
  | nil =>
    have := congrArg List.length e
    have h0 : w.length ≠ 0 := fun h => hw0 (List.length_eq_zero_iff.1 h)
    simp at this
    omega
  | last _ hn =>
    rcases ha with rfl | ⟨a, rfl⟩
    · exact ⟨rest, by simp [e]⟩
    · exact absurd (by rw [e]; simp) hn
  | lf hn _ _ ih =>
    rename_i l r ls _ _
    by_cases h0 : above = []
    · subst h0
      obtain ⟨m, rfl⟩ := prefix_before_newline (a := start ++ w) (b := rest) (l := l) (r := r)
        (by rw [e]; simp) hsw
      exact ⟨m, by simp⟩
    · obtain ⟨l', above', rfl, h1, h2⟩ := lines_above ha h0
      obtain ⟨rfl, rfl⟩ := first_newline (l := l) (l' := l') (r := r) (r' := above' ++ (start ++ (w ++ rest)))
        (by rw [e]; simp) hn h1
      obtain ⟨more, h3⟩ := ih rfl h2
      refine ⟨more, ?_⟩
      rw [List.count_append, List.count_cons_self, List.count_eq_zero_of_not_mem hn]
      simpa using h3
  | crlf hn _ ih =>
    rename_i l r ls _
    have hn' : '\n' ∉ l ++ ['\r'] := by simp [hn]
    by_cases h0 : above = []
    · subst h0
      obtain ⟨m, hm⟩ := prefix_before_newline (a := start ++ w) (b := rest) (l := l ++ ['\r']) (r := r)
        (by rw [List.nil_append] at e; rw [List.append_assoc, ← e]; simp) hsw
      rcases List.eq_nil_or_concat m with rfl | ⟨m', c, rfl⟩
      · exfalso
        rcases List.eq_nil_or_concat w with rfl | ⟨w', c, rfl⟩
        · exact hw0 rfl
        · rw [List.append_nil, List.concat_eq_append, ← List.append_assoc] at hm
          have := (List.append_inj' hm rfl).2
          simp only [List.cons.injEq, and_true] at this
          exact hwr (by rw [this]; simp)
      · rw [List.concat_eq_append, ← List.append_assoc] at hm
        obtain ⟨rfl, _⟩ := List.append_inj' hm rfl
        exact ⟨m', by simp⟩
    · obtain ⟨l', above', rfl, h1, h2⟩ := lines_above ha h0
      obtain ⟨rfl, rfl⟩ := first_newline (l := l ++ ['\r']) (l' := l') (r := r) (r' := above' ++ (start ++ (w ++ rest)))
        (by rw [List.append_assoc]; exact e.trans (by simp)) hn' h1
      obtain ⟨more, h3⟩ := ih rfl h2
      refine ⟨more, ?_⟩
      rw [List.count_append, List.count_cons_self, List.count_eq_zero_of_not_mem hn']
      simpa using h3

/-- What stands before a place: the lines above it and the start of its line. -/
theorem split_lines (pre : List Char) :
    ∃ above start, pre = above ++ start ∧ '\n' ∉ start ∧ (above = [] ∨ ∃ a, above = a ++ ['\n']) := by
  induction pre with
  | nil => exact ⟨[], [], rfl, by simp, .inl rfl⟩
  | cons c pre ih =>
    obtain ⟨above, start, rfl, h1, h2⟩ := ih
    rcases h2 with rfl | ⟨a, rfl⟩
    · by_cases hc : c = '\n'
      · subst hc
        exact ⟨['\n'], start, rfl, h1, .inr ⟨[], rfl⟩⟩
      · refine ⟨[], c :: start, rfl, ?_, .inl rfl⟩
        simp only [List.mem_cons, not_or]
        exact ⟨fun h => hc h.symm, h1⟩
    · exact ⟨c :: (a ++ ['\n']), start, rfl, h1, .inr ⟨c :: a, rfl⟩⟩

theorem caret_lines (n : Notice) {file : String} {s : Spot} (hf : n.file = some file) (hs : n.spot = some s) :
    ∃ before after, n.text = joinWith "\n" (before ++ [toString s.line ++ " | " ++ s.quoted,
      blankText (toString s.line).length ++ " | " ++ blankText (s.column - 1) ++ "^"] ++ after) := by
  refine ⟨[n.kind ++ ": " ++ n.what,
    blankText (toString s.line).length ++ "--> " ++ file ++ ":" ++ toString s.line ++ ":" ++ toString s.column,
    blankText (toString s.line).length ++ " |"],
    (match s.hint with
      | none => []
      | some h => [blankText (toString s.line).length ++ " = help: " ++ h]), ?_⟩
  unfold Notice.text Notice.lines
  rw [hf, hs]
  rfl

theorem blankText_toList (n : Nat) : (blankText n).toList = List.replicate n ' ' := by
  simp [blankText]

theorem caret_index (a b j : Nat) :
    (blankText a ++ " | " ++ blankText b ++ "^").toList[j]? = some '^' ↔ j = a + 3 + b := by
  have e : (blankText a ++ " | " ++ blankText b ++ "^").toList =
      (List.replicate a ' ' ++ " | ".toList ++ List.replicate b ' ') ++ ['^'] := by
    simp [blankText_toList]
  have hlen : (List.replicate a ' ' ++ " | ".toList ++ List.replicate b ' ').length = a + 3 + b := by
    simp
    omega
  rw [e]
  constructor
  · intro h
    by_cases hj : j < a + 3 + b
    · rw [List.getElem?_append_left (by omega)] at h
      have := List.mem_of_getElem? h
      simp at this
    · rw [List.getElem?_append_right (by omega), hlen] at h
      have : j - (a + 3 + b) < 1 := by
        have := (List.getElem?_eq_some_iff.1 h).1
        simpa using this
      omega
  · rintro rfl
    rw [List.getElem?_append_right (by omega), hlen]
    simp

/-- **C132.** If places are lines and columns, then whatever is said about a part of a document marks the word that the
part begins with. -/
theorem C132_caret_under_word (P : ParserSetup) {contents : String} {ds : Document}
    (hp : parseQuery P contents = .ok ds) (hc : CountsLines P.place contents.toList) {d : Definition} (hd : d ∈ ds)
    {pos : Pos} {word : String} (hm : Marked d pos word) {file kind what : String} {hint : Option String} {n : Notice}
    (h : At file contents kind what hint pos n) : CaretUnder contents n.text word := by
  obtain ⟨hw, pre, rest, h1, h2⟩ := part_stands P hp hd hm
  obtain ⟨above, start, rfl, h3, h4⟩ := split_lines pre
  rw [List.append_assoc] at h1
  rw [hc above start _ h1 h3 h4] at h2
  obtain ⟨q, ⟨ls, hls, hq⟩, hspot⟩ := h.spot
  obtain ⟨more, hline⟩ := word_in_line hls h1 h3 hw h4
  have hl : pos.line - 1 = above.count '\n' := by rw [h2]; simp
  have hcol : pos.column - 1 = start.length := by rw [h2]; simp
  rw [hl] at hq
  have hq' : q.toList = start ++ (word.toList ++ more) := by
    rcases hq with hq | ⟨hq, _⟩
    · exact Option.some.inj (hq.symm.trans hline)
    · have := (List.getElem?_eq_some_iff.1 hline).1
      omega
  obtain ⟨before, after, ht⟩ := caret_lines n h.file hspot
  refine ⟨before, pos.line, q, _, after, (toString pos.line).length + 3 + (pos.column - 1), ls, ht, hls, ?_, ?_, ?_, ?_, ?_⟩
  · rw [h2]; simp
  · rw [hl, hq', hline]
  · exact fun j => caret_index _ _ j
  · have : " | ".length = 3 := by decide
    rw [String.length_append]
    omega
  · have e : (toString pos.line ++ " | " ++ q).toList = (toString pos.line ++ " | ").toList ++ q.toList := by simp
    have hlen : (toString pos.line ++ " | ").toList.length = (toString pos.line).length + 3 := by
      have : " | ".length = 3 := by decide
      rw [String.length_toList, String.length_append, this]
    rw [e, ← hlen, List.drop_length_add_append, hq', hcol]
    simp

/-! ### What is reported is written in the file -/

mutual
theorem invalidSel_written (schema : Schema) (frags : Frags) : ∀ (s : Selection) (P : String) (x : String × Selection),
    x ∈ invalidSel schema frags P s → ∀ items, s ∈ items → WrittenIn items x.2
  | .field pos al name args dirs sub, P, x, hx, items, hs => by
    unfold invalidSel at hx
    split at hx
    · rw [List.mem_singleton] at hx
      subst hx
      exact .here hs
    · split at hx
      · split at hx
        · rw [List.mem_singleton] at hx
          subst hx
          exact .here hs
        · exact .field hs (invalidSelections_written schema frags sub _ x hx sub (fun _ h => h))
      · split at hx
        · cases hx
        · rw [List.mem_singleton] at hx
          subst hx
          exact .here hs
  | .inline pos none dirs sub, P, x, hx, items, hs => by
    unfold invalidSel at hx
    rw [List.mem_singleton] at hx
    subst hx
    exact .here hs
  | .inline pos (some C) dirs sub, P, x, hx, items, hs => by
    unfold invalidSel at hx
    split at hx
    · exact .inline hs (invalidSelections_written schema frags sub _ x hx sub (fun _ h => h))
    · rw [List.mem_singleton] at hx
      subst hx
      exact .here hs
  | .spread pos name dirs, P, x, hx, items, hs => by
    unfold invalidSel at hx
    split at hx
    · cases hx
    · rw [List.mem_singleton] at hx
      subst hx
      exact .here hs
theorem invalidSelections_written (schema : Schema) (frags : Frags) : ∀ (ss : List Selection) (P : String)
    (x : String × Selection), x ∈ invalidSelections schema frags P ss → ∀ items, (∀ s ∈ ss, s ∈ items) →
    WrittenIn items x.2
  | [], P, x, hx, items, h => by
    unfold invalidSelections at hx
    cases hx
  | s :: rest, P, x, hx, items, h => by
    unfold invalidSelections at hx
    rcases List.mem_append.1 hx with hx | hx
    · exact invalidSel_written schema frags s P x hx items (h s List.mem_cons_self)
    · exact invalidSelections_written schema frags rest P x hx items (fun s hs => h s (List.mem_cons_of_mem _ hs))
end

mutual
theorem neverMatchingSel_written (schema : Schema) (frags : Frags) : ∀ (s : Selection) (P : String) (N : List String)
    (x : Pos × String × List String), x ∈ neverMatchingSel schema frags P N s → ∀ items, s ∈ items →
    ∃ t, WrittenIn items t ∧ standsAt t = x.1 ∧ ∀ pos al name args dirs sub, t ≠ .field pos al name args dirs sub
  | .field pos al name args dirs sub, P, N, x, hx, items, hs => by
    unfold neverMatchingSel at hx
    split at hx
    · cases hx
    · split at hx
      · obtain ⟨t, h1, h2⟩ := neverMatching_written schema frags sub _ _ x hx sub (fun _ h => h)
        exact ⟨t, .field hs h1, h2⟩
      · cases hx
  | .inline pos none dirs sub, P, N, x, hx, items, hs => by
    unfold neverMatchingSel at hx
    cases hx
  | .inline pos (some C) dirs sub, P, N, x, hx, items, hs => by
    unfold neverMatchingSel at hx
    split at hx
    · rcases List.mem_append.1 hx with hx | hx
      · split at hx
        · rw [List.mem_singleton] at hx
          subst hx
          exact ⟨_, .here hs, rfl, by simp⟩
        · cases hx
      · obtain ⟨t, h1, h2⟩ := neverMatching_written schema frags sub _ _ x hx sub (fun _ h => h)
        exact ⟨t, .inline hs h1, h2⟩
    · cases hx
  | .spread pos name dirs, P, N, x, hx, items, hs => by
    unfold neverMatchingSel at hx
    split at hx
    · cases hx
    · split at hx
      · rw [List.mem_singleton] at hx
        subst hx
        exact ⟨_, .here hs, rfl, by simp⟩
      · cases hx
theorem neverMatching_written (schema : Schema) (frags : Frags) : ∀ (ss : List Selection) (P : String) (N : List String)
    (x : Pos × String × List String), x ∈ neverMatching schema frags P N ss → ∀ items, (∀ s ∈ ss, s ∈ items) →
    ∃ t, WrittenIn items t ∧ standsAt t = x.1 ∧ ∀ pos al name args dirs sub, t ≠ .field pos al name args dirs sub
  | [], P, N, x, hx, items, h => by
    unfold neverMatching at hx
    cases hx
  | s :: rest, P, N, x, hx, items, h => by
    unfold neverMatching at hx
    rcases List.mem_append.1 hx with hx | hx
    · exact neverMatchingSel_written schema frags s P N x hx items (h s List.mem_cons_self)
    · exact neverMatching_written schema frags rest P N x hx items (fun s hs => h s (List.mem_cons_of_mem _ hs))
end

mutual
theorem warnedUsesSel_written (schema : Schema) (frags : Frags) : ∀ (s : Selection) (P : String)
    (x : Pos × String × String), x ∈ warnedUsesSel schema frags P s → ∀ items, s ∈ items →
    ∃ pos al name args dirs sub f, WrittenIn items (.field pos al name args dirs sub) ∧ x.1 = pos ∧
      fieldOf schema x.2.2 name = some f ∧ x.2.1 = f.name
  | .field pos al name args dirs sub, P, x, hx, items, hs => by
    unfold warnedUsesSel at hx
    split at hx
    · cases hx
    · rename_i f hf
      rcases List.mem_append.1 hx with hx | hx
      · split at hx
        · obtain ⟨a, b, c, d, e, g, f, h1, h2⟩ := warnedUses_written schema frags sub _ x hx sub (fun _ h => h)
          exact ⟨a, b, c, d, e, g, f, .field hs h1, h2⟩
        · cases hx
      · split at hx
        · rw [List.mem_singleton] at hx
          subst hx
          exact ⟨pos, al, name, args, dirs, sub, f, .here hs, rfl, hf, rfl⟩
        · cases hx
  | .inline pos none dirs sub, P, x, hx, items, hs => by
    unfold warnedUsesSel at hx
    cases hx
  | .inline pos (some C) dirs sub, P, x, hx, items, hs => by
    unfold warnedUsesSel at hx
    split at hx
    · obtain ⟨a, b, c, d, e, g, f, h1, h2⟩ := warnedUses_written schema frags sub _ x hx sub (fun _ h => h)
      exact ⟨a, b, c, d, e, g, f, .inline hs h1, h2⟩
    · cases hx
  | .spread pos name dirs, P, x, hx, items, hs => by
    unfold warnedUsesSel at hx
    cases hx
theorem warnedUses_written (schema : Schema) (frags : Frags) : ∀ (ss : List Selection) (P : String)
    (x : Pos × String × String), x ∈ warnedUses schema frags P ss → ∀ items, (∀ s ∈ ss, s ∈ items) →
    ∃ pos al name args dirs sub f, WrittenIn items (.field pos al name args dirs sub) ∧ x.1 = pos ∧
      fieldOf schema x.2.2 name = some f ∧ x.2.1 = f.name
  | [], P, x, hx, items, h => by
    unfold warnedUses at hx
    cases hx
  | s :: rest, P, x, hx, items, h => by
    unfold warnedUses at hx
    rcases List.mem_append.1 hx with hx | hx
    · exact warnedUsesSel_written schema frags s P x hx items (h s List.mem_cons_self)
    · exact warnedUses_written schema frags rest P x hx items (fun s hs => h s (List.mem_cons_of_mem _ hs))
end

section
variable {P₀ : ParserSetup} {contents : String} {d : Definition} {schema : Schema} {frags : Frags}
  {dist : String → String → Nat} {file : String}

/-- **C132.** What is printed about an invalid selection of a file marks the word that the selection begins with, but for
type conditions that name no type or an input type, about which no place is given. -/
theorem C132_error_marks_selection (hp : parseQuery P₀ contents = .ok [d]) (hc : CountsLines P₀.place contents.toList)
    {P : String} {x : String × Selection} (hx : x ∈ invalidSelections schema frags P (itemsOf d)) {n : Notice}
    (hn : SelectionNotice schema frags dist file contents x.1 x.2 n) :
    CaretUnder contents n.text (opening x.2) ∨ NotMarked schema x.2 := by
  obtain ⟨Q, s⟩ := x
  have hm : Marked d (standsAt s) (opening s) := .selection (invalidSelections_written schema frags _ P _ hx _ (fun _ h => h))
  have key : ∀ {kind what hint}, At file contents kind what hint (standsAt s) n → CaretUnder contents n.text (opening s) :=
    fun h => C132_caret_under_word P₀ hp hc List.mem_cons_self hm h
  cases hn with
  | unknownField _ _ _ h => exact .inl (key h)
  | missingSelections _ _ h => exact .inl (key h)
  | selectionsOnLeaf _ _ _ h => exact .inl (key h)
  | noCondition h => exact .inl (key h)
  | unknownFragment _ _ h => exact .inl (key h)
  | condition h =>
    cases h with
    | unknown h => exact .inr ⟨_, _, _, _, rfl, .inl h⟩
    | input h h' => exact .inr ⟨_, _, _, _, rfl, .inr ⟨_, _, _, h, h'⟩⟩
    | leaf _ _ h => exact .inl (key h)

/-- **C132.** Every warning about a file marks the word that a selection of the file begins with. -/
theorem C132_warnings_mark_selections (hp : parseQuery P₀ contents = .ok [d]) (hc : CountsLines P₀.place contents.toList)
    {P : String} {showDep : Bool} {texts : List String}
    (h : WarningTexts schema frags showDep file contents P (itemsOf d) texts) :
    ∀ t ∈ texts, ∃ s, WrittenIn (itemsOf d) s ∧ CaretUnder contents t (opening s) := by
  obtain ⟨cs, ns, h1, h2, h3, rfl⟩ := h
  intro t ht
  obtain ⟨n, hn, rfl⟩ := List.mem_map.1 ht
  obtain ⟨i, hi⟩ := List.mem_iff_getElem.1 hn
  obtain ⟨hi, rfl⟩ := hi
  have hlen := h3.length_eq
  have hcn := List.forall₂_iff_get.1 h3 |>.2 i (by omega) hi
  simp only [List.get_eq_getElem] at hcn
  have hmem : cs[i]'(by omega) ∈ cs := List.getElem_mem _
  generalize cs[i]'(by omega) = c at hcn hmem
  generalize ns[i] = n at hcn
  cases hcn with
  | neverMatches _ _ h =>
    rename_i pos C possible names _ _
    have hx : (pos, C, possible) ∈ neverMatching schema frags P (possibleTypes schema P) (itemsOf d) := by
      rw [← h1]
      exact List.mem_filterMap.2 ⟨_, hmem, rfl⟩
    obtain ⟨s, k1, k2, _⟩ := neverMatching_written schema frags _ _ _ _ hx _ (fun _ h => h)
    have hm : Marked d pos (opening s) := by
      have hm := Marked.selection k1
      rw [k2] at hm
      exact hm
    exact ⟨s, k1, C132_caret_under_word P₀ hp hc List.mem_cons_self hm h⟩
  | deprecated h =>
    rename_i pos field type
    have hx : (pos, field, type) ∈ (if showDep then warnedUses schema frags P (itemsOf d) else []) := by
      rw [← h2]
      exact List.mem_filterMap.2 ⟨_, hmem, rfl⟩
    split at hx
    · obtain ⟨pos', al, name, args, dirs, sub, f, k1, rfl, _⟩ :=
        warnedUses_written schema frags _ _ _ hx _ (fun _ h => h)
      exact ⟨_, k1, C132_caret_under_word P₀ hp hc List.mem_cons_self (.selection k1) h⟩
    · cases hx

/-- **C132.** What is printed about a variable that cannot be used marks its dollar sign. -/
theorem C132_variable_marked (hp : parseQuery P₀ contents = .ok [d]) (hc : CountsLines P₀.place contents.toList)
    {v : VarDef} (hv : v ∈ varsOf d) {n : Notice} (hn : VariableNotice schema file contents v n) :
    CaretUnder contents n.text "$" := by
  have hm : Marked d v.pos "$" := .variable hv
  cases hn with
  | nested _ h => exact C132_caret_under_word P₀ hp hc List.mem_cons_self hm h
  | unsupported _ _ h => exact C132_caret_under_word P₀ hp hc List.mem_cons_self hm h
  | unknownType _ _ h => exact C132_caret_under_word P₀ hp hc List.mem_cons_self hm h

end

section
variable {ω : Hash} {fuel : Nat} {P₀ : ParserSetup} {dist : String → String → Nat} {cfg : CompileConfig} {schema : Schema}
  {w : World} {p : Path} {contents : String} {d : Definition} {st : ImportSt} {frags : Frags} {r : CompileResult}

/-- **C132.** A file with invalid selections: one text is printed for each of them, in document order, and marks the word
that it begins with; then the warnings, which mark selections, too. -/
theorem C132_invalid_file (hcon : Consistent schema)
    (h : compileFile ω fuel (Ext.graphql P₀ dist) cfg schema w p = some (.done r))
    (hr : w.read p = .ok contents) (hp : parseQuery P₀ contents = .ok [d]) (hc : CountsLines P₀.place contents.toList)
    (hs : addImported w cfg fuel p contents ⟨[], []⟩ = some (.done st))
    (P : String) (hP : rootType d = some P) (hcomp : IsComposite schema P)
    (hfr : frags = (parseForeignFragments ω (Ext.graphql P₀ dist) p st.imports st.messages).1)
    (hinv : ¬ Valid schema frags P (itemsOf d)) :
    ∃ imports errors warnings, r.texts = imports ++ errors ++ warnings ∧
      ImportTexts (Ext.graphql P₀ dist) w cfg p contents imports ∧
      List.Forall₂ (fun (x : String × Selection) t => WrittenIn (itemsOf d) x.2 ∧
        (CaretUnder contents t (opening x.2) ∨ NotMarked schema x.2)) (invalidSelections schema frags P (itemsOf d)) errors ∧
      ∀ t ∈ warnings, ∃ s, WrittenIn (itemsOf d) s ∧ CaretUnder contents t (opening s) := by
  obtain ⟨imports, errors, warnings, h1, h2, ⟨ns, rfl, h3⟩, h4, _⟩ :=
    C82_invalid_selections_as_printed hcon h hr hp hs P hP hcomp hfr hinv
  refine ⟨imports, _, warnings, h1, h2, ?_, C132_warnings_mark_selections hp hc h4⟩
  rw [List.forall₂_map_right_iff]
  refine List.forall₂_iff_get.2 ⟨h3.length_eq, fun i hi hi' => ?_⟩
  have hn := (List.forall₂_iff_get.1 h3).2 i hi hi'
  have hx := List.get_mem (invalidSelections schema frags P (itemsOf d)) ⟨i, hi⟩
  exact ⟨invalidSelections_written schema frags _ _ _ hx _ (fun _ h => h), C132_error_marks_selection hp hc hx hn⟩

/-- **C132.** A file that is compiled successfully: every warning marks a selection of the file. -/
theorem C132_valid_file (hcon : Consistent schema)
    (h : compileFile ω fuel (Ext.graphql P₀ dist) cfg schema w p = some (.done r)) (rep : CompileReport)
    (hrep : r.result = .ok rep) (hc : ∀ contents, w.read p = .ok contents → CountsLines P₀.place contents.toList) :
    ∃ contents d imports warnings, w.read p = .ok contents ∧ parseQuery P₀ contents = .ok [d] ∧
      r.texts = imports ++ warnings ∧ ImportTexts (Ext.graphql P₀ dist) w cfg p contents imports ∧
      ∀ t ∈ warnings, ∃ s, WrittenIn (itemsOf d) s ∧ CaretUnder contents t (opening s) := by
  obtain ⟨contents, d, st, P, frags, imports, warnings, h1, h2, _, _, _, h3, h4, h5⟩ :=
    C83_warnings_as_printed hcon h rep hrep
  exact ⟨contents, d, imports, warnings, h1, h2, h3, h4, C132_warnings_mark_selections h2 (hc _ h1) h5⟩

/-- **C132.** A file with more than one definition: what is printed marks the second one. -/
theorem C132_second_definition (h : compileFile ω fuel (Ext.graphql P₀ dist) cfg schema w p = some (.done r))
    (hr : w.read p = .ok contents) {d₁ d₂ : Definition} {rest : List Definition}
    (hp : parseQuery P₀ contents = .ok (d₁ :: d₂ :: rest)) (hc : CountsLines P₀.place contents.toList) :
    ∃ t, r.texts = [t] ∧ CaretUnder contents t (firstWord d₂) := by
  obtain ⟨n, hn, ht, _⟩ := C84_not_one_definition_as_printed h (by
    rintro ⟨c, d, hr', hp'⟩
    obtain rfl : c = contents := Except.ok.inj (hr'.symm.trans hr)
    have hp' : parseQuery P₀ c = .ok [d] := hp'
    rw [hp] at hp'
    simp at hp')
  refine ⟨_, ht, ?_⟩
  cases hn with
  | unreadable h => rw [hr] at h; cases h
  | «syntax» h h' =>
    rw [hr] at h
    cases h
    have h' : parseQuery P₀ _ = _ := h'
    rw [hp] at h'
    cases h'
  | empty h h' =>
    rw [hr] at h
    cases h
    have h' : parseQuery P₀ _ = _ := h'
    rw [hp] at h'
    cases h'
  | several h h' hat =>
    rw [hr] at h
    cases h
    have h' : parseQuery P₀ _ = _ := h'
    rw [hp] at h'
    cases h'
    exact C132_caret_under_word P₀ hp hc (by simp) .start hat

end

/-! ### Concrete cases -/

theorem counted (pre : List Char) (l c : Nat) (start : List Char) (hs : '\n' ∉ start)
    (h : pre = [] ∨ ∃ a, pre = a ++ ['\n']) :
    (pre ++ start).foldl (fun (p : Pos) ch => if ch = '\n' then ⟨p.line + 1, 1⟩ else ⟨p.line, p.column + 1⟩) ⟨l, c⟩ =
      ⟨l + pre.count '\n', (if pre = [] then c else 1) + start.length⟩ := by
  induction pre generalizing l c with
  | nil =>
    clear h
    induction start generalizing c with
    | nil => simp
    | cons ch start ih =>
      simp only [List.mem_cons, not_or] at hs
      rw [List.nil_append, List.foldl_cons, if_neg (fun h => hs.1 h.symm)]
      have := ih hs.2 (c + 1)
      rw [List.nil_append] at this
      rw [this]
      simp
      omega
  | cons ch pre ih =>
    have h' : pre = [] ∨ ∃ a, pre = a ++ ['\n'] := by
      rcases h with h | ⟨a, h⟩
      · cases h
      · cases a with
        | nil => simp at h; exact .inl h.2
        | cons x a => simp at h; exact .inr ⟨a, h.2⟩
    by_cases hc : ch = '\n'
    · subst hc
      rw [List.cons_append, List.foldl_cons, if_pos rfl, ih _ _ h']
      simp
      omega
    · rw [List.cons_append, List.foldl_cons, if_neg hc, ih _ _ h']
      have : pre ≠ [] := by
        rintro rfl
        rcases h with h | ⟨a, h⟩
        · cases h
        · cases a with
          | nil => simp at h; exact hc h
          | cons x a => simp at h
      simp [this, hc]

/-- The parser of the examples counts so. -/
theorem demo_counts (text : List Char) : CountsLines Demo.parser.place text := by
  intro above start rest e hs h
  subst e
  show Demo.lineColumn _ _ = _
  unfold Demo.lineColumn
  have : (above ++ (start ++ rest)).take ((above ++ (start ++ rest)).length - rest.length) = above ++ start := by
    rw [← List.append_assoc, List.length_append, Nat.add_sub_cancel, List.take_left]
  rw [this, counted above 1 1 start hs h]
  simp
  constructor <;> omega

namespace Demo

/-- A document with mistakes. -/
def markText : String := "query Q {
  viewer {
    first: nope  id old
    ...Gone
    ... on Bot { id }
  }
}
"

/-- Its parsed form. -/
def markDef : Definition := .operation .query ⟨1, 1⟩ (some "Q") [] []
  [.field ⟨2, 3⟩ none "viewer" [] [] [.field ⟨3, 5⟩ (some "first") "nope" [] [] [], leaf 3 18 "id", leaf 3 21 "old",
    .spread ⟨4, 8⟩ "Gone" [], .inline ⟨5, 9⟩ (some "Bot") [] [leaf 5 18 "id"]]]

/-- What is printed about the one file, as the modelled parser reads it. -/
def marks (text : String) : Option (List String) :=
  match compileFile .inOrder 9 (Ext.graphql parser (fun _ _ => 9)) cfg schema (oneFile text) qPath with
  | some (.done r) => some r.texts
  | _ => none

end Demo

theorem mark_text : parseQuery Demo.parser Demo.markText = .ok [Demo.markDef] :=
  holdsOnlyB_sound (by decide +kernel)

/-- What is printed about it.  The first text is about the field `nope`, and marks its alias. -/
theorem C132_demo : Demo.marks Demo.markText = some
    ["error: unknown field `nope`\n --> /r/q.graphql:3:5\n  |\n3 |     first: nope  id old\n  |     ^\n  = help: Check the fields of `User`.",
     "error: unknown spread fragment name `Gone`\n --> /r/q.graphql:4:8\n  |\n4 |     ...Gone\n  |        ^\n  = help: This fragment name doesn't appear to be in scope. Did you forget to import it?",
     "warning: use of deprecated field `old` on type `User`\n --> /r/q.graphql:3:21\n  |\n3 |     first: nope  id old\n  |                     ^",
     "warning: fragment over narrowing with type `Bot`\n --> /r/q.graphql:5:9\n  |\n5 |     ... on Bot { id }\n  |         ^\n  = help: The parent types of this spread are limited to `User`, making spreading `Bot` extraneous."] := by
  decide +kernel

/-- The document meets the hypotheses of `C132_invalid_file`. -/
example : ∃ r, compileFile .inOrder 9 (Ext.graphql Demo.parser (fun _ _ => 9)) Demo.cfg Demo.schema
      (Demo.oneFile Demo.markText) Demo.qPath = some (.done r) ∧
    (Demo.oneFile Demo.markText).read Demo.qPath = .ok Demo.markText ∧
    parseQuery Demo.parser Demo.markText = .ok [Demo.markDef] ∧
    CountsLines Demo.parser.place Demo.markText.toList ∧
    addImported (Demo.oneFile Demo.markText) Demo.cfg 9 Demo.qPath Demo.markText ⟨[], []⟩ = some (.done ⟨[], []⟩) ∧
    rootType Demo.markDef = some "Query" ∧ IsComposite Demo.schema "Query" ∧
    ¬ Valid Demo.schema [] "Query" (itemsOf Demo.markDef) ∧
    (invalidSelections Demo.schema [] "Query" (itemsOf Demo.markDef)).length = 2 := by
  have h := C132_demo
  unfold Demo.marks at h
  split at h
  · rename_i r hr
    refine ⟨r, hr, rfl, mark_text, demo_counts _, by rfl, rfl, rfl, ?_, by decide +kernel⟩
    rw [← invalidSelections_nil_iff]
    intro h
    have : (invalidSelections Demo.schema [] "Query" (itemsOf Demo.markDef)).length = 2 := by decide +kernel
    rw [h] at this
    cases this
  · cases h

/-- A caret under a word. -/
example : CaretUnder "a bc" "error: x\n --> f:1:3\n  |\n1 | a bc\n  |   ^" "bc" := by
  refine ⟨["error: x", " --> f:1:3", "  |"], 1, "a bc", "  |   ^", [], 6, ["a bc".toList], by decide,
    (isLines_iff _ _).2 (by decide), by decide, rfl, ?_, by decide, by decide⟩
  exact fun j => caret_index 1 2 j

/-- Two definitions in a file: the second one is marked. -/
theorem C132_second_demo : Demo.marks "fragment F on Node { name }\n\n  query { count }" = some
    ["error: multi definition files unsupported\n --> /r/q.graphql:3:3\n  |\n3 |   query { count }\n  |   ^\n  = help: QLC does not support documents with more than one fragment, query or mutation per file. Move this definition to a seperate file and import it instead."] := by
  decide +kernel

end Qlc
