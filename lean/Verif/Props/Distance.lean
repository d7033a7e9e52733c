import Verif.Props.Diagnostics
import Verif.Props.Caret
import Verif.Props.DocumentNames
import Verif.Spec.Grammar
import Verif.Lemmas.DistanceTable
import Verif.Lemmas.DistanceVec
/-
Property C136: "Did you mean" lists exactly the names that are at most two typing mistakes away.
-/
set_option autoImplicit false

namespace Qlc
open Spec

/-- **C136.** The distance of two texts is the least number of typing mistakes that lead from one to the other: so many
do, and no fewer. -/
theorem C136_distance {α : Type} [DecidableEq α] (a b : List α) :
    Edits (damerau a b) a b ∧ ∀ n, Edits n a b → damerau a b ≤ n := damerau_least a b

/-- **C136.** Statement by statement, with the table in one vector: no index is out of range, no subtraction goes below zero,
and the result is that distance. -/
theorem C136_never_panics {α : Type} [DecidableEq α] (a b : List α) : damerauVec a b = some (damerau a b) := damerauVec_eq a b

example : damerauVec [1, 2, 3] [3, 1, 4, 2] = some 3 := by decide +kernel

theorem utf8_plain {cs : List Char} (h : ∀ c ∈ cs, c.toNat < 128) : utf8Bytes cs = cs.map (fun c => UInt8.ofNat c.toNat) := by
  induction cs with
  | nil => rfl
  | cons c cs ih =>
    have hc := h c List.mem_cons_self
    have h1 : String.utf8EncodeChar c = [UInt8.ofNat c.toNat] := by
      have : c.toNat ≤ 127 := by omega
      simp [String.utf8EncodeChar, this]
    have h2 := ih fun c hc => h c (List.mem_cons_of_mem _ hc)
    simp only [utf8Bytes, List.flatMap_cons, List.map_cons] at h2 ⊢
    rw [h1, h2]
    rfl

theorem joinWith_intercalate (sep : String) : ∀ l : List String, joinWith sep l = sep.intercalate l
  | [] => rfl
  | [x] => by simp [joinWith]
  | x :: y :: l => by
    rw [joinWith, joinWith_intercalate sep (y :: l), String.intercalate_cons_cons]

theorem plain_byte_inj {x y : Char} (hx : x.toNat < 128) (hy : y.toNat < 128)
    (h : UInt8.ofNat x.toNat = UInt8.ofNat y.toNat) : x = y := by
  have h1 := congrArg UInt8.toNat h
  simp only [UInt8.toNat_ofNat'] at h1
  have h2 : x.toNat = y.toNat := by omega
  exact Char.toNat_inj.1 h2

/-- **C136.** The distance below which a name is suggested: at most two typing mistakes. -/
theorem C136_near {a b : String} (ha : PlainName a) (hb : PlainName b) : nameDistance a b < 3 ↔ NearName a b := by
  unfold nameDistance
  rw [utf8_plain ha, utf8_plain hb, damerau_map fun x hx y hy => plain_byte_inj (ha x hx) (hb y hy)]
  constructor
  · intro h
    exact ⟨_, Nat.le_of_lt_succ h, (damerau_least _ _).1⟩
  · rintro ⟨n, hn, h⟩
    have := (damerau_least _ _).2 _ h
    omega

/-- Every GraphQL name is plain. -/
theorem C136_names_are_plain {s : String} (h : IsGqlName s) : PlainName s := by
  intro c hc
  rcases h.1.2 c hc with h | rfl | rfl
  · simp only [Char.isAlphanum, Char.isAlpha, Char.isUpper, Char.isLower, Char.isDigit, Bool.or_eq_true, Bool.and_eq_true,
      decide_eq_true_eq, UInt32.le_iff_toNat_le, ge_iff_le] at h
    change c.val.toNat < 128
    have e1 : ('Z' : Char).val.toNat = 90 := rfl
    have e2 : ('z' : Char).val.toNat = 122 := rfl
    have e3 : ('9' : Char).val.toNat = 57 := rfl
    rcases h with (⟨_, h⟩ | ⟨_, h⟩) | ⟨_, h⟩
    · have := Nat.le_trans h (Nat.le_of_eq e1); omega
    · have := Nat.le_trans h (Nat.le_of_eq e2); omega
    · have := Nat.le_trans h (Nat.le_of_eq e3); omega
  · decide
  · decide

theorem suggestsNear_of {name : String} {candidates : List String} {other text : String} (hn : PlainName name)
    (hc : ∀ c ∈ candidates, PlainName c) (h : Suggests nameDistance name candidates other text) :
    SuggestsNear name candidates other text := by
  obtain ⟨near, hp, rfl⟩ := h
  refine ⟨near, candidates.filter (fun c => !decide (nameDistance name c < 3)), ?_, ?_, ?_, ?_, ?_⟩
  · exact (hp.append_right _).trans (List.filter_append_perm _ _)
  · intro c h
    have h := List.mem_filter.1 (hp.mem_iff.1 h)
    exact (C136_near hn (hc c h.1)).1 (by simpa using h.2)
  · intro c h hc'
    have h := List.mem_filter.1 h
    have := (C136_near hn (hc c h.1)).2 hc'
    simp at h
    omega
  · intro h; rw [if_pos h]
  · intro h; rw [if_neg h, joinWith_intercalate]

/-- **C136.** The help for a misspelled name lists exactly the candidates that are at most two typing mistakes away. -/
theorem C136_suggestions {name : String} {possible : List String} (hn : PlainName name)
    (hc : ∀ c ∈ possible, PlainName c) (other : String) :
    SuggestsNear name possible other ((similarHelp nameDistance name possible).getD other) :=
  suggestsNear_of hn hc (suggests_of nameDistance name possible possible other (List.Perm.refl _))

section
variable {ω : Hash} {fuel : Nat} {ext : Ext} {cfg : CompileConfig} {schema : Schema}
  {w : World} {p : Path} {contents : String} {d : Definition} {st : ImportSt} {frags : Frags} {r : CompileResult}

theorem at_ends {file contents kind what hint : String} {pos : Pos} {n : Notice}
    (h : At file contents kind what (some hint) pos n) : ∃ before, n.text = before ++ hint := by
  obtain ⟨h1, h2, h3, q, _, h4⟩ := h
  obtain ⟨k, wh, f, sp⟩ := n
  simp only at h1 h2 h3 h4
  subst h1 h2 h3 h4
  refine ⟨joinWith "\n" [k ++ ": " ++ wh, blankText (toString pos.line).length ++ "--> " ++ file ++ ":" ++ toString pos.line ++
    ":" ++ toString pos.column, blankText (toString pos.line).length ++ " |", toString pos.line ++ " | " ++ q,
    blankText (toString pos.line).length ++ " | " ++ blankText (pos.column - 1) ++ "^",
    blankText (toString pos.line).length ++ " = help: "], ?_⟩
  apply str_eq
  simp [Notice.text, Notice.lines, joinWith]

theorem helps_with {P : String} {sel : Selection} {n : Notice} {file : String} (hf : PlainFields schema)
    (hfr : ∀ c ∈ AMap.keys frags, PlainName c) (hn : ∀ c ∈ writtenName sel, PlainName c)
    (h : SelectionNotice schema frags nameDistance file contents P sel n) : HelpsWith schema frags P n.text sel := by
  cases h with
  | unknownField h1 h2 h3 h4 =>
    intro fl h1' _
    rw [h1] at h1'
    cases h1'
    obtain ⟨before, e⟩ := at_ends h4
    exact ⟨before, _, suggestsNear_of (hn _ (by simp [writtenName])) (hf _ _ h1) h3, by rw [e]; apply str_eq; simp⟩
  | missingSelections h1 =>
    intro fl h1' h2'
    simp [fieldOf, h1', h2'] at h1
  | selectionsOnLeaf h1 =>
    intro fl h1' h2'
    simp [fieldOf, h1', h2'] at h1
  | noCondition => trivial
  | condition => trivial
  | unknownFragment h1 h2 h3 =>
    intro _
    obtain ⟨before, e⟩ := at_ends h3
    exact ⟨before, _, suggestsNear_of (hn _ (by simp [writtenName])) hfr h2, by rw [e]; apply str_eq; simp⟩

/-- **C136.** As printed, with any parser: for a file with invalid selections one text is printed for each of them; about an
unknown field it lists exactly the fields of the type that are at most two typing mistakes away, about an unknown fragment
exactly the fragments in scope that are. -/
theorem C136_as_printed (hcon : Consistent schema) (hd : ext.dist = nameDistance) (hf : PlainFields schema)
    (h : compileFile ω fuel ext cfg schema w p = some (.done r))
    (hr : w.read p = .ok contents) (hp : ext.parse contents = .ok [d])
    (hs : addImported w cfg fuel p contents ⟨[], []⟩ = some (.done st))
    (P : String) (hP : rootType d = some P) (hcomp : IsComposite schema P)
    (hfr : frags = (parseForeignFragments ω ext p st.imports st.messages).1)
    (hpf : ∀ c ∈ AMap.keys frags, PlainName c)
    (hpn : ∀ s, WrittenIn (itemsOf d) s → ∀ c ∈ writtenName s, PlainName c)
    (hinv : ¬ Valid schema frags P (itemsOf d)) :
    ∃ imports errors warnings, r.texts = imports ++ errors ++ warnings ∧
      List.Forall₂ (fun (x : String × Selection) t => HelpsWith schema frags x.1 t x.2)
        (invalidSelections schema frags P (itemsOf d)) errors := by
  obtain ⟨imports, errors, warnings, h1, _, ⟨ns, rfl, h3⟩, _, _⟩ :=
    C82_invalid_selections_as_printed hcon h hr hp hs P hP hcomp hfr hinv
  refine ⟨imports, _, warnings, h1, ?_⟩
  rw [List.forall₂_map_right_iff]
  rw [hd] at h3
  refine List.forall₂_iff_get.2 ⟨h3.length_eq, fun i hi hi' => ?_⟩
  have hn := (List.forall₂_iff_get.1 h3).2 i hi hi'
  have hx := List.get_mem (invalidSelections schema frags P (itemsOf d)) ⟨i, hi⟩
  exact helps_with hf hpf (hpn _ (invalidSelections_written schema frags _ _ _ hx _ (fun _ h => h))) hn

end

/-! ### Names in documents -/

section
variable {Q : String → Prop}

/-- All selections at or below these. -/
def PieceWritten : SelPiece → Selection → Prop
  | .one s => WrittenIn [s]
  | .many ss => WrittenIn ss

theorem writtenIn_field {pos : Pos} {al : Option String} {name : String} {args : List (String × Value)} {dirs : List Directive}
    {items : List Selection} {s : Selection} (h : WrittenIn [.field pos al name args dirs items] s) :
    s = .field pos al name args dirs items ∨ WrittenIn items s := by
  cases h with
  | here h => simp at h; exact .inl h
  | field h h' => simp at h; obtain ⟨_, _, _, _, _, rfl⟩ := h; exact .inr h'
  | «inline» h h' => simp at h

theorem writtenIn_inline {pos : Pos} {cond : Option String} {dirs : List Directive}
    {items : List Selection} {s : Selection} (h : WrittenIn [.inline pos cond dirs items] s) :
    s = .inline pos cond dirs items ∨ WrittenIn items s := by
  cases h with
  | here h => simp at h; exact .inl h
  | field h h' => simp at h
  | «inline» h h' => simp at h; obtain ⟨_, _, _, rfl⟩ := h; exact .inr h'

theorem writtenIn_spread {pos : Pos} {n : String} {dirs : List Directive} {s : Selection}
    (h : WrittenIn [.spread pos n dirs] s) : s = .spread pos n dirs := by
  cases h with
  | here h => simpa using h
  | field h h' => simp at h
  | «inline» h h' => simp at h

theorem writtenIn_cons {x : Selection} {ss : List Selection} {s : Selection} (h : WrittenIn (x :: ss) s) :
    WrittenIn [x] s ∨ WrittenIn ss s := by
  cases h with
  | here h =>
    rcases List.mem_cons.1 h with rfl | h
    · exact .inl (.here (by simp))
    · exact .inr (.here h)
  | field h h' =>
    rcases List.mem_cons.1 h with rfl | h
    · exact .inl (.field List.mem_cons_self h')
    · exact .inr (.field h h')
  | «inline» h h' =>
    rcases List.mem_cons.1 h with rfl | h
    · exact .inl (.inline List.mem_cons_self h')
    · exact .inr (.inline h h')

theorem fieldName_own {pos : Pos} {al : Option String} {n : String} {ts : Toks} (h : IsFieldName pos al n ts)
    (hq : NamesAre Q ts) : Q n := by
  cases h with
  | plain => exact hq _ _ (List.mem_cons_self ..)
  | aliased => exact hq _ _ (List.mem_cons_of_mem _ (List.mem_cons_of_mem _ (List.mem_cons_self ..)))

theorem selects_names {x : SelPiece} {ts : Toks} (h : Selects x ts) : NamesAre Q ts →
    ∀ s, PieceWritten x s → ∀ k ∈ writtenName s, Q k := by
  induction h with
  | field hn _ _ =>
    intro hq s hs k hk
    rcases writtenIn_field hs with rfl | hs
    · simp only [writtenName, List.mem_singleton] at hk
      rw [hk]
      exact fieldName_own hn (names_left hq)
    · cases hs with
      | here h => cases h
      | field h => cases h
      | «inline» h => cases h
  | fieldWith hn _ _ _ ih =>
    intro hq s hs k hk
    rcases writtenIn_field hs with rfl | hs
    · simp only [writtenName, List.mem_singleton] at hk
      rw [hk]
      exact fieldName_own hn (names_left hq)
    · exact ih (names_left (names_tail (names_right (names_right (names_right hq))))) s hs k hk
  | «inline» _ _ _ _ ih =>
    intro hq s hs k hk
    rcases writtenIn_inline hs with rfl | hs
    · simp [writtenName] at hk
    · exact ih (names_left (names_tail (names_right (names_right (names_tail hq))))) s hs k hk
  | spread _ _ =>
    intro hq s hs k hk
    rw [writtenIn_spread hs] at hk
    simp only [writtenName, List.mem_singleton] at hk
    rw [hk]
    exact hq _ _ (List.mem_cons_of_mem _ (List.mem_cons_self ..))
  | last _ ih => exact ih
  | more _ _ ih₁ ih₂ =>
    intro hq s hs k hk
    rcases writtenIn_cons hs with hs | hs
    · exact ih₁ (names_left hq) s hs k hk
    · exact ih₂ (names_right hq) s hs k hk

theorem selectionSet_written {pos : Pos} {items : List Selection} {ts : Toks} (h : IsSelectionSet pos items ts)
    (hq : NamesAre Q ts) : ∀ s, WrittenIn items s → ∀ k ∈ writtenName s, Q k := by
  obtain ⟨p', inner, hs, rfl⟩ := h
  exact selects_names hs (names_left (names_tail hq))

theorem definition_written {d : Definition} {ts : Toks} (h : IsDefinition d ts) (hq : NamesAre Q ts) :
    ∀ s, WrittenIn (itemsOf d) s → ∀ k ∈ writtenName s, Q k := by
  cases h with
  | selectionSet hs => exact selectionSet_written hs hq
  | operation hn hv _ hs =>
    exact selectionSet_written hs (names_right (names_right (names_right (names_tail hq))))
  | fragment _ hs =>
    exact selectionSet_written hs (names_right (names_tail (names_tail (names_tail (names_tail hq)))))

theorem document_written {ds : Document} {ts : Toks} (h : IsDocument ds ts) : NamesAre Q ts → ∀ d ∈ ds,
    ∀ s, WrittenIn (itemsOf d) s → ∀ k ∈ writtenName s, Q k := by
  induction h with
  | last hd =>
    intro hq d hm
    rw [List.mem_singleton] at hm
    rw [hm]
    exact definition_written hd hq
  | more hd _ ih =>
    intro hq d hm
    rcases List.mem_cons.1 hm with rfl | hm
    · exact definition_written hd (names_left hq)
    · exact ih (names_right hq) d hm

end

section
variable {ω : Hash} {fuel : Nat} {P₀ : ParserSetup} {cfg : CompileConfig} {schema : Schema}
  {w : World} {p : Path} {contents : String} {d : Definition} {st : ImportSt} {frags : Frags} {r : CompileResult}

/-- **C136.** As printed, with the parser of the GraphQL grammar: only the schema needs plain field names; those in documents
are plain. -/
theorem C136_document (hcon : Consistent schema) (hf : PlainFields schema)
    (h : compileFile ω fuel (Ext.graphql P₀ nameDistance) cfg schema w p = some (.done r))
    (hr : w.read p = .ok contents) (hp : parseQuery P₀ contents = .ok [d])
    (hs : addImported w cfg fuel p contents ⟨[], []⟩ = some (.done st))
    (P : String) (hP : rootType d = some P) (hcomp : IsComposite schema P)
    (hfr : frags = (parseForeignFragments ω (Ext.graphql P₀ nameDistance) p st.imports st.messages).1)
    (hinv : ¬ Valid schema frags P (itemsOf d)) :
    ∃ imports errors warnings, r.texts = imports ++ errors ++ warnings ∧
      List.Forall₂ (fun (x : String × Selection) t => HelpsWith schema frags x.1 t x.2)
        (invalidSelections schema frags P (itemsOf d)) errors := by
  refine C136_as_printed (ext := Ext.graphql P₀ nameDistance) hcon rfl hf h hr hp hs P hP hcomp hfr ?_ ?_ hinv
  · intro c hc
    rw [hfr] at hc
    obtain ⟨f, hget⟩ := Option.isSome_iff_exists.1 ((AMap.get?_isSome _ c).2 hc)
    obtain ⟨hn, e, _, he⟩ := (C39_scope_and_errors ω (Ext.graphql P₀ nameDistance) p st.imports st.messages).1 c f hget
    rcases (C130_names P₀ he _ (List.mem_singleton_self _)).2.2 with ⟨_, _, h⟩ | h
    · cases h
    · rw [← hn]
      exact C136_names_are_plain h
  · intro s hs k hk
    obtain ⟨ts, h1, _, h3⟩ := (C127_reads_iff P₀ contents [d]).1 hp
    exact C136_names_are_plain (document_written h3 (tokens_names h1) d (List.mem_singleton_self d) s hs k hk)

end

/-! ### Concrete cases -/

/-- Two neighbours swapped and one letter left out: near. -/
example : NearName "vieewr" "viewer" ∧ NearName "nam" "name" ∧ NearName "naem" "nae" :=
  ⟨⟨1, by decide, .more (.none _) (.swap "vie".toList "r".toList 'e' 'w')⟩,
   ⟨1, by decide, .more (.none _) (.insert "nam".toList [] 'e')⟩,
   ⟨1, by decide, .more (.none _) (.delete "nae".toList [] 'm')⟩⟩

/-- `naem` is one mistake away from `name`, and `ca` two from `abc` (swap, then insert between). -/
theorem C136_demo : nameDistance "naem" "name" = 1 ∧ nameDistance "ca" "abc" = 2 ∧ nameDistance "id" "" = 2 ∧
    nameDistance "abc" "xyz" = 3 := by decide +kernel

example : ¬ NearName "abc" "xyz" := fun h => absurd ((C136_near (by decide) (by decide)).2 h) (by decide +kernel)

namespace Demo
/-- A parser with a fixed result, and the distance of the program. -/
def nearParse (x : Except String (List Definition)) : Ext where
  parse := fun _ => x
  dist := nameDistance

/-- What is printed about the one file. -/
def nearPrinted (schema : Schema) (text : String) (x : Except String (List Definition)) : Option (List String) :=
  match compileFile .inOrder 9 (nearParse x) Demo.cfg schema (oneFile text) qPath with
  | some (.done r) => some r.texts
  | _ => none
end Demo

/-- A whole compilation: what is printed about the misspelled field. -/
theorem C136_printed_demo : Demo.nearPrinted Demo.schema Demo.badText (.ok [Demo.badDef]) = some
    ["error: unknown field `nope`\n --> /r/q.graphql:2:3\n  |\n2 |   nope\n  |   ^\n  = help: Check the fields of `Query`. Did you mean one of the following: `node`?",
     "program error: failed lookup of type `Nope`"] := by decide +kernel

theorem plainFields_of {schema : Schema} (h : ∀ T ∈ AMap.keys schema, ∀ fl ∈ (fieldsOf schema T).toList,
    ∀ c ∈ AMap.keys fl, PlainName c) : PlainFields schema := by
  intro T fl hfl
  refine h T ?_ fl (by simp [hfl])
  apply (AMap.get?_isSome schema T).1
  unfold fieldsOf Schema.getType at hfl
  split at hfl
  · cases hfl
  · simp [*]

/-- The fields of the demo schema have plain names. -/
theorem demo_plain : PlainFields Demo.schema := plainFields_of (by decide +kernel)

/-- `query {⏎  viewer { naem ...Nope }⏎  nodes⏎}`. -/
def Demo.slipText : String := "query {\n  viewer { naem ...Nope }\n  nodes\n}"

/-- Its parsed form. -/
def Demo.slipDef : Definition := .operation .query ⟨1, 1⟩ none [] []
  [.field ⟨2, 3⟩ none "viewer" [] [] [leaf 2 12 "naem", .spread ⟨2, 20⟩ "Nope" []], leaf 3 3 "nodes"]

theorem slip_text : parseQuery Demo.parser Demo.slipText = .ok [Demo.slipDef] := holdsOnlyB_sound (by decide +kernel)

/-- A file without imports is compiled the same whichever parser reads it the same. -/
theorem compile_alone {ω : Hash} {fuel : Nat} {ext ext' : Ext} {cfg : CompileConfig} {schema : Schema} {w : World} {p : Path}
    {contents : String} (hr : w.read p = .ok contents) (hp : ext.parse contents = ext'.parse contents)
    (hd : ext.dist = ext'.dist) (hs : addImported w cfg fuel p contents ⟨[], []⟩ = some (.done ⟨[], []⟩)) :
    compileFile ω fuel ext cfg schema w p = compileFile ω fuel ext' cfg schema w p := by
  have hn : ω.perm ["graphql.rs:175"] ([] : AMap Path (String × Location)) = [] := List.perm_nil.1 (ω.isPerm _ _)
  unfold compileFile generateFile readGraphqlFile
  simp only [hr, parseGraphqlFile, hp, hs, parseForeignFragments, hn, foreignLoop, hd]

/-- A whole compilation, from the text: two names are near others, one is not. -/
theorem C136_slip_demo : ∃ r, compileFile .inOrder 9 (Ext.graphql Demo.parser nameDistance) Demo.cfg Demo.schema
    (Demo.oneFile Demo.slipText) Demo.qPath = some (.done r) ∧ r.texts =
    ["error: unknown field `naem`\n --> /r/q.graphql:2:12\n  |\n2 |   viewer { naem ...Nope }\n  |            ^\n  = help: Check the fields of `User`. Did you mean one of the following: `name`?",
     "error: unknown spread fragment name `Nope`\n --> /r/q.graphql:2:20\n  |\n2 |   viewer { naem ...Nope }\n  |                    ^\n  = help: This fragment name doesn't appear to be in scope. Did you forget to import it?",
     "error: unknown field `nodes`\n --> /r/q.graphql:3:3\n  |\n3 |   nodes\n  |   ^\n  = help: Check the fields of `Query`. Did you mean one of the following: `node`?"] := by
  have h : Demo.nearPrinted Demo.schema Demo.slipText (.ok [Demo.slipDef]) = some
    ["error: unknown field `naem`\n --> /r/q.graphql:2:12\n  |\n2 |   viewer { naem ...Nope }\n  |            ^\n  = help: Check the fields of `User`. Did you mean one of the following: `name`?",
     "error: unknown spread fragment name `Nope`\n --> /r/q.graphql:2:20\n  |\n2 |   viewer { naem ...Nope }\n  |                    ^\n  = help: This fragment name doesn't appear to be in scope. Did you forget to import it?",
     "error: unknown field `nodes`\n --> /r/q.graphql:3:3\n  |\n3 |   nodes\n  |   ^\n  = help: Check the fields of `Query`. Did you mean one of the following: `node`?"] := by
    decide +kernel
  unfold Demo.nearPrinted at h
  split at h
  · rename_i r hr
    injection h with h
    refine ⟨r, ?_, h⟩
    rw [← hr]
    exact compile_alone rfl slip_text rfl rfl
  · cases h

/-- That file meets the hypotheses of `C136_document`, and so of `C136_as_printed`. -/
example : (∃ r, compileFile .inOrder 9 (Ext.graphql Demo.parser nameDistance) Demo.cfg Demo.schema
      (Demo.oneFile Demo.slipText) Demo.qPath = some (.done r)) ∧
    parseQuery Demo.parser Demo.slipText = .ok [Demo.slipDef] ∧ PlainFields Demo.schema ∧
    (Demo.oneFile Demo.slipText).read Demo.qPath = .ok Demo.slipText ∧
    addImported (Demo.oneFile Demo.slipText) Demo.cfg 9 Demo.qPath Demo.slipText ⟨[], []⟩ =
      some (.done ⟨[], []⟩) ∧
    rootType Demo.slipDef = some "Query" ∧ IsComposite Demo.schema "Query" ∧
    ¬ Valid Demo.schema [] "Query" (itemsOf Demo.slipDef) := by
  obtain ⟨r, h1, _⟩ := C136_slip_demo
  refine ⟨⟨r, h1⟩, slip_text, demo_plain, rfl, rfl, rfl, rfl, ?_⟩
  intro h
  obtain ⟨f, hf, _⟩ := h "Query" _ (Demo.leaf 3 3 "nodes") (.here (by simp [itemsOf, Demo.slipDef]))
  have : fieldOf Demo.schema "Query" "nodes" = none := rfl
  rw [this] at hf
  simp at hf

theorem C136_help_demo : similarHelp nameDistance "nope" ["node", "name", "viewer"] =
    some " Did you mean one of the following: `node`, `name`?" := by decide +kernel

end Qlc
