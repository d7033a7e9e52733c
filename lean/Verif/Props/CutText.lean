import Verif.Props.GraphqlText
import Verif.Props.TornText
/-
C129: documents of which only the beginning has been written.
-/
set_option autoImplicit false

namespace Qlc
open Spec

/-! ### Tokens -/

/-- What means nothing before one text means nothing before another that begins with the same character. -/
theorem gap_before {g r s : List Char} (h : Gap g r) (hs : ∀ c s', s = c :: s' → ∃ r', r = c :: r') : Gap g s := by
  induction h with
  | nil => exact .nil
  | blank hc _ ih => exact .blank hc (ih hs)
  | comment hb he hg ih =>
    rename_i body g rest
    refine .comment hb ?_ (ih hs)
    intro c r' e
    cases g with
    | nil =>
      obtain ⟨r'', rfl⟩ := hs c r' e
      exact he c r'' rfl
    | cons x g =>
      cases e
      exact he _ _ rfl

/-- A token does not go on if it did not before more text was added. -/
theorem notContinued_append {t : GTok} {c : Char} {r b : List Char} (h : NotContinued t (c :: r)) :
    NotContinued t (c :: r ++ b) := by
  cases t with
  | punct => trivial
  | dots => trivial
  | name s =>
    intro x y e
    cases e
    exact h _ _ rfl
  | number s =>
    intro x y e
    cases e
    exact h _ _ rfl
  | string s =>
    intro hs y e
    cases e
    exact h hs _ rfl

theorem tokensOf_nil {place : List Char → Pos} {cs : List Char} {ts : Toks} (h : TokensOf place cs ts) (e : cs = []) :
    ts = [] := by
  cases h with
  | done => rfl
  | more _ ht _ _ =>
    obtain ⟨c, w', rfl, _⟩ := token_head ht
    simp at e

/-- The first token of a text that begins with one. -/
theorem tokensOf_first {place : List Char → Pos} {g w r : List Char} {t : GTok} {ts : Toks} (hg : Gap g (w ++ r))
    (ht : TokenText t w) (hc : NotContinued t r) (h : TokensOf place (g ++ (w ++ r)) ts) :
    ∃ ts', ts = (place (w ++ r), t) :: ts' ∧ TokensOf place r ts' := by
  obtain ⟨c, w', rfl, hs⟩ := token_head ht
  have h := lexAll_iff.2 h
  rw [lexAll, skip_complete hg (by intro x y e; cases e; exact hs)] at h
  simp only [List.cons_append] at h
  rw [← List.cons_append, lexToken_complete ht hc] at h
  simp only [Option.map_eq_some_iff] at h
  obtain ⟨ts', h1, rfl⟩ := h
  exact ⟨ts', rfl, lexAll_sound _ h1⟩

/-- The tokens of the beginning of a text, up to one after a brace, are the first tokens of the text. -/
theorem tokens_beginning {place place' : List Char → Pos} {a : List Char} {us : Toks} (h : TokensOf place a us) :
    (∀ x, us.getLast? = some x → x.2 = .punct '}') → ∀ (b : List Char) (ts : Toks), TokensOf place' (a ++ b) ts →
      ∃ us' vs, ts = us' ++ vs ∧ Moved us us' := by
  induction h with
  | done _ =>
    intro _ b ts _
    exact ⟨[], ts, rfl, rfl⟩
  | more hg ht hc hr ih =>
    rename_i g w rest t us₁
    intro hl b ts hts
    have hg' : Gap g (w ++ (rest ++ b)) := by
      refine gap_before hg ?_
      intro c s' e
      obtain ⟨c', w', rfl, _⟩ := token_head ht
      cases e
      exact ⟨_, rfl⟩
    have hc' : NotContinued t (rest ++ b) := by
      cases rest with
      | nil =>
        cases tokensOf_nil hr rfl
        have : t = .punct '}' := hl _ rfl
        subst this
        trivial
      | cons c r => exact notContinued_append hc
    have e : (g ++ (w ++ rest)) ++ b = g ++ (w ++ (rest ++ b)) := by simp [List.append_assoc]
    rw [e] at hts
    obtain ⟨ts', rfl, h1⟩ := tokensOf_first hg' ht hc' hts
    have hl' : ∀ x, us₁.getLast? = some x → x.2 = .punct '}' := by
      intro x hx
      refine hl x ?_
      cases us₁ with
      | nil => simp at hx
      | cons y r => rw [List.getLast?_cons_cons]; exact hx
    obtain ⟨us', vs, rfl, m⟩ := ih hl' b ts' h1
    refine ⟨_ :: us', vs, rfl, ?_⟩
    unfold Moved at m ⊢
    simp [m]

/-! ### Definitions -/

theorem definition_last {d : Definition} {ts : Toks} (h : IsDefinition d ts) : ∃ p, [(p, .punct '}')] <:+ ts := by
  have key : ∀ {pos : Pos} {items : List Selection} {ts : Toks}, IsSelectionSet pos items ts →
      ∃ p, [(p, GTok.punct '}')] <:+ ts := by
    rintro pos items _ ⟨p', inner, _, rfl⟩
    exact ⟨p', (pos, .punct '{') :: inner, rfl⟩
  cases h with
  | selectionSet hs => exact key hs
  | operation _ _ _ hs =>
    obtain ⟨p, h⟩ := key hs
    refine ⟨p, h.trans ?_⟩
    rw [← List.append_assoc, ← List.append_assoc, ← List.cons_append]
    exact List.suffix_append _ _
  | fragment _ hs =>
    obtain ⟨p, h⟩ := key hs
    refine ⟨p, h.trans ?_⟩
    rw [← List.cons_append, ← List.cons_append, ← List.cons_append, ← List.cons_append]
    exact List.suffix_append _ _

theorem document_last {ds : Document} {ts : Toks} (h : IsDocument ds ts) : ∃ p, [(p, .punct '}')] <:+ ts := by
  induction h with
  | last hd => exact definition_last hd
  | more _ _ ih =>
    obtain ⟨p, h⟩ := ih
    exact ⟨p, h.trans (List.suffix_append _ _)⟩

theorem definitions_nonempty {ds : Document} {ts : Toks} (h : IsDocument ds ts) : ds ≠ [] := by
  cases h <;> simp

/-- The first definition of a document that begins with the tokens of a definition. -/
theorem document_first {d : Definition} {us vs : Toks} {doc : Document} (h : IsDefinition d us)
    (h' : IsDocument doc (us ++ vs)) : (doc = [d] ∧ vs = []) ∨ ∃ ds, doc = d :: ds ∧ IsDocument ds vs := by
  generalize e : us ++ vs = ts at h'
  have k := definition_complete h vs
  cases h' with
  | last hd =>
    have k' := definition_complete hd []
    rw [List.append_nil, ← e, k] at k'
    cases k'
    exact .inl ⟨rfl, rfl⟩
  | more hd hr =>
    have k' := definition_complete hd ‹_›
    rw [← e, k] at k'
    cases k'
    exact .inr ⟨_, rfl, hr⟩

/-- A document that begins with the tokens of a document begins with its definitions. -/
theorem document_beginning {ds : Document} {us : Toks} (h : IsDocument ds us) :
    ∀ (vs : Toks) (doc : Document), IsDocument doc (us ++ vs) →
      (doc = ds ∧ vs = []) ∨ ∃ more, doc = ds ++ more ∧ IsDocument more vs := by
  induction h with
  | last hd =>
    intro vs doc h'
    exact document_first hd h'
  | more hd hm ih =>
    intro vs doc h'
    rw [List.append_assoc] at h'
    rcases document_first hd h' with ⟨_, e⟩ | ⟨ds', rfl, h''⟩
    · exact absurd (List.append_eq_nil_iff.1 e).1 (document_nonempty hm)
    · rcases ih vs ds' h'' with ⟨rfl, rfl⟩ | ⟨more, rfl, h3⟩
      · exact .inl ⟨rfl, rfl⟩
      · exact .inr ⟨more, rfl, h3⟩

/-! ### Import lines -/

theorem stripCr_keeps (g u : List Char) {c : Char} (hc : c ≠ '\r') :
    ∃ u', stripCr (g ++ c :: u) = g ++ c :: u' := by
  unfold stripCr
  split
  · rename_i h
    cases hu : u.reverse with
    | nil =>
      rw [List.reverse_eq_nil_iff] at hu
      subst hu
      rw [List.getLast?_concat] at h
      exact absurd (Option.some.inj h) hc
    | cons x r =>
      have e : u = r.reverse ++ [x] := by rw [← List.reverse_reverse u, hu, List.reverse_cons]
      refine ⟨r.reverse, ?_⟩
      rw [e, ← List.cons_append, ← List.append_assoc, List.dropLast_concat]
  · exact ⟨u, rfl⟩

theorem first_nl {l : List Char} (h : '\n' ∈ l) : ∃ x y, l = x ++ '\n' :: y ∧ '\n' ∉ x := by
  induction l with
  | nil => simp at h
  | cons c l ih =>
    by_cases hc : c = '\n'
    · exact ⟨[], l, by rw [hc]; rfl, by simp⟩
    · obtain ⟨x, y, rfl, hx⟩ := ih ((List.mem_cons.1 h).resolve_left (fun e => hc e.symm))
      exact ⟨c :: x, y, rfl, by simp [hx, Ne.symm hc]⟩

/-- A line with more than a comment ends the import lines. -/
theorem block_ends (g s : List Char) {c : Char} (hg : '\n' ∉ g) (hh : '#' ∉ g) (hw : isWs c = false) (hc : c ≠ '#') :
    commentBlock (linesC (g ++ c :: s)) = [] := by
  have hn : c ≠ '\n' := by rintro rfl; revert hw; decide
  have hr : c ≠ '\r' := by rintro rfl; revert hw; decide
  have key : ∀ u, (isBlank (g ++ c :: u) || decide ((g ++ c :: u).head? = some '#')) = false := by
    intro u
    rw [Bool.or_eq_false_iff]
    constructor
    · unfold isBlank
      rw [List.all_append, List.all_cons, hw]
      simp
    · rw [decide_eq_false_iff_not]
      cases g with
      | nil => simpa using hc
      | cons x g =>
        simp only [List.cons_append, List.head?_cons, Option.some.injEq]
        rintro rfl
        exact hh (List.mem_cons_self ..)
  by_cases hs : '\n' ∈ s
  · obtain ⟨x, y, rfl, hx⟩ := first_nl hs
    have e : g ++ c :: (x ++ '\n' :: y) = (g ++ c :: x) ++ '\n' :: y := by simp
    rw [e, linesC_nl (by simp [hg, hx, Ne.symm hn])]
    obtain ⟨u', hu⟩ := stripCr_keeps g x hr
    rw [hu]
    unfold commentBlock
    rw [List.takeWhile_cons, key]
    rfl
  · rw [linesC_last (by simp) (by simp [hg, hs, Ne.symm hn])]
    unfold commentBlock
    rw [List.takeWhile_cons, key]
    rfl

theorem block_same {c : Char} (hw : isWs c = false) (hc : c ≠ '#') (s s' : List Char) : ∀ (n : Nat) (g : List Char),
    g.length ≤ n → (∀ x y, g = x ++ '#' :: y → '\n' ∈ y) →
    commentBlock (linesC (g ++ c :: s)) = commentBlock (linesC (g ++ c :: s'))
  | n, g, hl, hA => by
    by_cases hg : '\n' ∈ g
    · obtain ⟨x, y, rfl, hx⟩ := first_nl hg
      cases n with
      | zero => simp at hl
      | succ n =>
        have ih := block_same hw hc s s' n y (by simp at hl; omega)
          (fun u v e => hA (x ++ '\n' :: u) v (by rw [e]; simp))
        rw [List.append_assoc, List.append_assoc, List.cons_append, List.cons_append, linesC_nl hx, linesC_nl hx]
        unfold commentBlock at ih ⊢
        rw [List.takeWhile_cons, List.takeWhile_cons, ih]
    · have hh : '#' ∉ g := by
        intro hm
        obtain ⟨x, y, rfl⟩ := List.append_of_mem hm
        exact hg (List.mem_append_right _ (List.mem_cons_of_mem _ (hA x y rfl)))
      rw [block_ends g s hg hh hw hc, block_ends g s' hg hh hw hc]

/-- Comments before a token end with a line break. -/
theorem gap_comments {g rest : List Char} (h : Gap g rest) : ∀ {c : Char} {r : List Char}, rest = c :: r → ¬ LineEnd c →
    (∀ x y, g ++ rest = x ++ '\r' :: y → ∃ z, y = '\n' :: z) → ∀ x y, g = x ++ '#' :: y → '\n' ∈ y := by
  induction h with
  | nil => intro c r _ _ _ x y e; simp at e
  | blank hb _ ih =>
    rename_i b g rest _
    intro c r hr hc hcr x y e
    cases x with
    | nil =>
      cases e
      exact absurd hb (by decide +kernel)
    | cons x₀ x =>
      cases e
      exact ih hr hc (fun u v e => hcr (_ :: u) v (by rw [List.cons_append, e]; rfl)) x y rfl
  | comment hb he hg ih =>
    rename_i body g rest
    intro c r hr hc hcr x y e
    have hcr' : ∀ u v, g ++ rest = u ++ '\r' :: v → ∃ z, v = '\n' :: z :=
      fun u v e => hcr ('#' :: body ++ u) v (by rw [List.append_assoc, e, ← List.append_assoc])
    have hn : '\n' ∈ g := by
      cases g with
      | nil =>
        subst hr
        exact absurd (he c r rfl) hc
      | cons a g =>
        rcases he a _ rfl with rfl | rfl
        · exact List.mem_cons_self ..
        · obtain ⟨z, hz⟩ := hcr' [] (g ++ rest) rfl
          cases g with
          | nil =>
            subst hr
            cases hz
            exact absurd (.inl rfl) hc
          | cons a' g =>
            cases hz
            simp
    rw [List.append_eq_append_iff] at e
    rcases e with ⟨u, e1, e2⟩ | ⟨u, e1, e2⟩
    · exact ih hr hc hcr' u y e2
    · cases u with
      | nil =>
        rw [List.nil_append] at e2
        exact ih hr hc hcr' [] y (by rw [← e2]; rfl)
      | cons v u =>
        cases e2
        exact List.mem_append_right _ hn

theorem token_notWs {t : GTok} {w : List Char} (h : TokenText t w) : ∃ c w', w = c :: w' ∧ isWs c = false ∧ c ≠ '#' := by
  have hp : ∀ c ∈ "!$&():=@[]{|}".toList, isWs c = false ∧ c ≠ '#' := by decide +kernel
  have hn : ∀ c ∈ "abcdefghijklmnopqrstuvwxyzABCDEFGHIJKLMNOPQRSTUVWXYZ_".toList, isWs c = false ∧ c ≠ '#' := by
    decide +kernel
  have hd : ∀ c ∈ "0123456789".toList, isWs c = false ∧ c ≠ '#' := by decide +kernel
  cases h with
  | punct hc => exact ⟨_, _, rfl, hp _ hc⟩
  | dots => exact ⟨'.', ['.', '.'], by decide +kernel, by decide +kernel⟩
  | name hc _ => exact ⟨_, _, rfl, hn _ hc⟩
  | number hj =>
    obtain ⟨c, t', rfl, hc⟩ := numeral_head hj
    rcases hc with rfl | hc
    · exact ⟨_, _, rfl, by decide +kernel⟩
    · exact ⟨_, _, rfl, hd _ hc⟩
  | string _ => exact ⟨_, _, rfl, by decide +kernel⟩
  | block _ => exact ⟨'"', _, rfl, by decide +kernel⟩

/-- Every carriage return is followed by a line feed. -/
def NoLoneCr (text : String) : Prop := ∀ x y, text.toList = x ++ '\r' :: y → ∃ z, y = '\n' :: z

/-- If the beginning of a text has tokens, then the import lines are all there. -/
theorem imports_beginning {place : List Char → Pos} {text text' : String} {ts : Toks} (hc : NoLoneCr text)
    (hb : text'.toList <+: text.toList) (h : TokensOf place text'.toList ts) (hne : ts ≠ []) :
    importsOf text' = importsOf text := by
  obtain ⟨b, hb⟩ := hb
  unfold importsOf
  unfold NoLoneCr at hc
  rw [← hb] at hc ⊢
  generalize text'.toList = cs at h hc
  cases h with
  | done _ => exact absurd rfl hne
  | more hg ht hco hr =>
    rename_i g w rest t ts
    obtain ⟨c, w', rfl, h1, h2⟩ := token_notWs ht
    have e : g ++ (c :: w' ++ rest) ++ b = g ++ c :: (w' ++ rest ++ b) := by simp
    rw [e] at hc ⊢
    have hg' : Gap g (c :: (w' ++ rest ++ b)) := gap_before hg (by
      intro x s' e
      cases e
      exact ⟨_, rfl⟩)
    have hA := gap_comments hg' rfl (by rintro (rfl | rfl) <;> revert h1 <;> decide) hc
    unfold importLines
    rw [← block_same h1 h2 (w' ++ rest) (w' ++ rest ++ b) g.length g (Nat.le_refl _) hA]
    rfl

/-! ### C129 -/

/-- **C129.** If the beginning of a document is a document, then it holds the first definitions of the whole, complete,
and if it holds all of them, then what is missing means nothing. -/
theorem C129_first_definitions (P : ParserSetup) {text text' : String} {doc doc' : Document}
    (h : parseQuery P text = .ok doc) (hb : text'.toList <+: text.toList) (h' : parseQuery P text' = .ok doc') :
    doc'.map unplaced <+: doc.map unplaced ∧ (doc'.length = doc.length → SameTokens text text') := by
  obtain ⟨b, hb⟩ := hb
  obtain ⟨ts, h1, _, h3⟩ := (C127_reads_iff P text doc).1 h
  obtain ⟨us, k1, _, k3⟩ := (C127_reads_iff P text' doc').1 h'
  rw [← hb] at h1
  obtain ⟨us', vs, rfl, m⟩ := tokens_beginning k1 (by
    obtain ⟨p, pre, rfl⟩ := document_last k3
    intro x hx
    rw [List.getLast?_concat] at hx
    cases hx
    rfl) b ts h1
  obtain ⟨ds, a1, a2⟩ := document_moved k3 us' m
  have len : ds.length = doc'.length := by simpa using congrArg List.length a2
  rcases document_beginning a1 vs doc h3 with ⟨rfl, rfl⟩ | ⟨more, rfl, hm⟩
  · rw [a2]
    refine ⟨List.prefix_refl _, fun _ => ?_⟩
    rw [hb, List.append_nil] at h1
    exact ⟨_, _, _, _, h1, k1, m⟩
  · rw [List.map_append, a2]
    refine ⟨List.prefix_append _ _, fun e => ?_⟩
    rw [List.length_append] at e
    have := definitions_nonempty hm
    cases more with
    | nil => exact absurd rfl this
    | cons x r =>
      simp only [List.length_cons] at e
      omega

/-- **C129.** The beginning of a document that holds one definition is no document, or holds this definition,
complete, and what is missing means nothing. -/
theorem C129_whole_or_error (P : ParserSetup) {text text' : String} {d : Definition}
    (h : parseQuery P text = .ok [d]) (hb : text'.toList <+: text.toList) :
    (∃ e, parseQuery P text' = .error e) ∨ SameTokens text text' ∧ ∃ d', parseQuery P text' = .ok [d'] ∧
      unplaced d' = unplaced d := by
  cases h' : parseQuery P text' with
  | error e => exact .inl ⟨e, rfl⟩
  | ok ds =>
    right
    obtain ⟨h1, h2⟩ := C129_first_definitions P h hb h'
    obtain ⟨us, _, _, k3⟩ := (C127_reads_iff P text' ds).1 h'
    have hne := definitions_nonempty k3
    match ds, hne, h1, h2 with
    | [d'], _, h1, h2 =>
      refine ⟨h2 rfl, d', rfl, ?_⟩
      obtain ⟨x, hx⟩ := h1
      simp only [List.map_cons, List.map_nil, List.cons_append, List.nil_append, List.cons.injEq] at hx
      exact hx.1
    | a :: b :: r, _, h1, _ =>
      have := h1.length_le
      simp at this

theorem cut_beginning {text text' : String} {n : Nat} (h : cut text n = .ok text') : text'.toList <+: text.toList := by
  rw [C64_torn_contents, decode_iff, utf8_toList, utf8_toList] at h
  have e := cutChars_whole text.toList text'.toList n h.symm
  have key : ∀ (l l' : List Char) (n : Nat), cutChars l n = .ok l' → l' <+: l := by
    intro l
    induction l with
    | nil =>
      intro l' n h
      cases h
      exact List.prefix_refl _
    | cons c l ih =>
      intro l' n h
      rw [cutChars] at h
      split at h
      · cases h
        exact List.nil_prefix
      · split at h
        · cases h
        · split at h
          · rename_i l₁ e₁
            cases h
            exact List.cons_prefix_cons.2 ⟨rfl, ih _ _ e₁⟩
          · cases h
  exact key _ _ _ e

/-- **C129.** If the beginning of a document is a document, then all import lines are there, unless there are carriage
returns without line feeds. -/
theorem C129_imports (P : ParserSetup) {text text' : String} {ds : Document} (hc : NoLoneCr text)
    (hb : text'.toList <+: text.toList) (h : parseQuery P text' = .ok ds) : importsOf text' = importsOf text := by
  obtain ⟨ts, h1, _, h3⟩ := (C127_reads_iff P text' ds).1 h
  exact imports_beginning hc hb h1 (document_nonempty h3)

/-- **C129.** If only the first bytes of a document that holds one definition are in its file, then compiling the file
fails with one message, or gives the same result as the whole document. -/
theorem C129_file {P : ParserSetup} {dist : String → String → Nat} {cfg : CompileConfig} {w : World} {p : Path}
    (ω : Hash) (fuel : Nat) (schema : Schema) {text : String} {d : Definition} (n : Nat) (hr : w.read p = .ok text)
    (hd : parseQuery P text = .ok [d]) (hcr : NoLoneCr text) (hu : FragmentNamesUnique (Ext.graphql P dist) w cfg p) :
    (∃ m, generateFile ω fuel (Ext.graphql P dist) cfg schema (w.set (w.resolve p) (cut text n)) p =
      some (.done (.error [m]))) ∨
    GeneratedSame (generateFile ω fuel (Ext.graphql P dist) cfg schema w p)
      (generateFile ω fuel (Ext.graphql P dist) cfg schema (w.set (w.resolve p) (cut text n)) p) := by
  have hr' : (w.set (w.resolve p) (cut text n)).read p = cut text n := by
    show (if w.resolve p = w.resolve p then cut text n else _) = _
    rw [if_pos rfl]
  cases hc : cut text n with
  | error e =>
    left
    rw [hc] at hr'
    refine ⟨Msg.ioError "read" e p, ?_⟩
    unfold generateFile readGraphqlFile
    rw [hr']
  | ok text' =>
    rw [hc] at hr'
    rcases C129_whole_or_error P hd (cut_beginning hc) with ⟨e, he⟩ | ⟨ht, d', hd', _⟩
    · left
      have he' : (Ext.graphql P dist).parse text' = .error e := he
      refine ⟨(Msg.simpleCompileError e).withSource p none, ?_⟩
      unfold generateFile readGraphqlFile
      rw [hr']
      simp only
      unfold parseGraphqlFile
      rw [he']
    · have hi := C129_imports P hcr (cut_beginning hc) hd'
      refine .inr (C128_file ω fuel schema ⟨rfl, rfl, fun q _ => ?_⟩ hu)
      show RelaidRead (w.read q) (if w.resolve q = w.resolve p then .ok text' else w.disk (w.resolve q))
      by_cases e : w.resolve q = w.resolve p
      · rw [if_pos e]
        have : w.read q = w.read p := by
          show w.disk _ = w.disk _
          rw [e]
        rw [this, hr]
        exact .inr ⟨hi, ht⟩
      · rw [if_neg e]
        show RelaidRead (w.disk (w.resolve q)) (w.disk (w.resolve q))
        cases w.disk (w.resolve q) with
        | ok t => exact .inl rfl
        | error e => rfl

/-! ### Examples -/

/-- Without its last brace the demo query is no document, without the last line break it is. -/
example : cut Demo.queryText 154 = .ok (String.ofList (Demo.queryText.toList.take 154)) ∧
    notDocumentB (String.ofList (Demo.queryText.toList.take 154)) = true ∧
    notDocumentB (String.ofList (Demo.queryText.toList.take 155)) = false ∧ Demo.queryText.toList.length = 156 := by
  decide +kernel

/-- With more than one definition, the first may be all that is there. -/
example : notDocumentB "{ a }" = false ∧ notDocumentB "{ a } { b }" = false ∧ notDocumentB "{ a } { b" = true := by
  decide +kernel

/-- To GraphQL, a carriage return alone ends a comment; to qlc it does not end an import line.  So here the whole text
is one import line. -/
example : notDocumentB "#import \"f.graphql\"\r{ ...F }" = false ∧
    (importsOf "#import \"f.graphql\"\r{ ...F }").map (fun l => l.line.length) = [28] := by decide +kernel

theorem noLoneCr_of_none {text : String} (h : '\r' ∉ text.toList) : NoLoneCr text := by
  intro x y e
  rw [e] at h
  simp at h

theorem unique_of_hashProof {ext : Ext} {schema : Schema} {w : World} {cfg : CompileConfig} {p : Path} {text : String}
    {d : Definition} (hh : HashProof ext schema w cfg p) (hr : w.read p = .ok text) (hd : ext.parse text = .ok [d]) :
    FragmentNamesUnique ext w cfg p := by
  intro c hc
  obtain rfl : text = c := Except.ok.inj (hr.symm.trans hc)
  exact (hh text d hr hd).1

theorem unique_in_text {q f : String} {d : Definition}
    (hh : HashProof Demo.textExt Demo.respSchema (Demo.textWorld q f) Demo.cfg Demo.qPath)
    (hd : parseQuery Demo.parser q = .ok [d]) : FragmentNamesUnique Demo.textExt (Demo.textWorld q f) Demo.cfg Demo.qPath :=
  unique_of_hashProof hh (textWorld_q q f) hd

theorem text_cut {q f : String} {d : Definition} (ω : Hash) (n : Nat) (hd : parseQuery Demo.parser q = .ok [d])
    (hc : NoLoneCr q) (hu : FragmentNamesUnique Demo.textExt (Demo.textWorld q f) Demo.cfg Demo.qPath) :
    (∃ m, generateFile ω 9 Demo.textExt Demo.cfg Demo.respSchema ((Demo.textWorld q f).set "/r/q.graphql" (cut q n))
      Demo.qPath = some (.done (.error [m]))) ∨
    GeneratedSame (generateFile ω 9 Demo.textExt Demo.cfg Demo.respSchema (Demo.textWorld q f) Demo.qPath)
      (generateFile ω 9 Demo.textExt Demo.cfg Demo.respSchema ((Demo.textWorld q f).set "/r/q.graphql" (cut q n))
        Demo.qPath) :=
  C129_file ω 9 Demo.respSchema n (textWorld_q q f) hd hc hu

/-- The demo query, cut anywhere: it is refused, or compiles to the same file. -/
theorem C129_demo (ω : Hash) (n : Nat) :
    (∃ m, generateFile ω 9 Demo.textExt Demo.cfg Demo.respSchema
      ((Demo.textWorld Demo.queryText Demo.fragmentText).set "/r/q.graphql" (cut Demo.queryText n)) Demo.qPath =
      some (.done (.error [m]))) ∨
    GeneratedSame (generateFile ω 9 Demo.textExt Demo.cfg Demo.respSchema
        (Demo.textWorld Demo.queryText Demo.fragmentText) Demo.qPath)
      (generateFile ω 9 Demo.textExt Demo.cfg Demo.respSchema
        ((Demo.textWorld Demo.queryText Demo.fragmentText).set "/r/q.graphql" (cut Demo.queryText n)) Demo.qPath) :=
  text_cut ω n query_text (noLoneCr_of_none (by decide +kernel)) (unique_in_text (sameReading_hashProof text_sameReading
    (run_hashProof (p := Demo.qPath) ((mem_filesOf _ _).1 (by decide +kernel)))) query_text)

end Qlc
