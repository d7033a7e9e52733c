import Verif.Lemmas.GraphqlMove
import Verif.Props.Rename
/-
C127 and C128: the texts of documents.
-/
set_option autoImplicit false

namespace Qlc
open Spec

/-! ### C127 -/

/-- **C127.** A text is read as a document exactly if it consists of tokens that form the document by the GraphQL
grammar, and the parser does not refuse these tokens for another reason. -/
theorem C127_reads_iff (P : ParserSetup) (text : String) (doc : Document) :
    parseQuery P text = .ok doc ↔
      ∃ ts, TokensOf (P.place text.toList) text.toList ts ∧ P.refuse (ts.map Prod.snd) = false ∧ IsDocument doc ts := by
  unfold parseQuery
  constructor
  · intro h
    split at h
    · cases h
    · rename_i ts hl
      split at h
      · cases h
      · rename_i hr
        split at h
        · cases h
        · rename_i ds hd
          cases h
          exact ⟨ts, lexAll_iff.1 hl, by simpa using hr, document_sound _ hd⟩
  · rintro ⟨ts, h1, h2, h3⟩
    rw [lexAll_iff.2 h1]
    simp only
    rw [h2, document_complete h3 _ (by omega)]
    rfl

/-- **C127.** A text has one sequence of tokens at most. -/
theorem C127_one_sequence {place : List Char → Pos} {cs : List Char} {ts ts' : Toks} (h : TokensOf place cs ts)
    (h' : TokensOf place cs ts') : ts = ts' := by
  rw [← lexAll_iff] at h h'
  rw [h] at h'
  exact Option.some.inj h'

/-- **C127.** A sequence of tokens forms one document at most. -/
theorem C127_one_document {ts : Toks} {ds ds' : Document} (h : IsDocument ds ts) (h' : IsDocument ds' ts) : ds = ds' := by
  have h1 := document_complete h ts.length (Nat.le_refl _)
  rw [document_complete h' ts.length (Nat.le_refl _)] at h1
  exact (Option.some.inj h1).symm

/-- **C127.** Every other text is an error. -/
theorem C127_otherwise (P : ParserSetup) (text : String)
    (h : ¬ ∃ ts doc, TokensOf (P.place text.toList) text.toList ts ∧ P.refuse (ts.map Prod.snd) = false ∧
      IsDocument doc ts) : parseQuery P text = .error (P.say text) := by
  cases hp : parseQuery P text with
  | ok doc =>
    obtain ⟨ts, h1, h2, h3⟩ := (C127_reads_iff P text doc).1 hp
    exact absurd ⟨ts, doc, h1, h2, h3⟩ h
  | error e =>
    unfold parseQuery at hp
    split at hp
    · exact hp.symm
    · split at hp
      · exact hp.symm
      · split at hp
        · exact hp.symm
        · cases hp

/-! ### C128 -/

/-- **C128.** Texts with the same tokens hold the same definitions, but for their places. -/
theorem C128_same_definitions (P : ParserSetup) {text text' : String} (h : SameTokens text text') :
    SameDefinitions (parseQuery P text) (parseQuery P text') := by
  obtain ⟨place, place', ts, ts', h1, h2, h3⟩ := h
  obtain ⟨us, k1, m1⟩ := tokens_anywhere (place' := P.place text.toList) h1
  obtain ⟨us', k2, m2⟩ := tokens_anywhere (place' := P.place text'.toList) h2
  have m : us'.map Prod.snd = us.map Prod.snd := by
    unfold Moved at m1 m2
    rw [m1, m2, h3]
  have forth : ∀ doc, parseQuery P text = .ok doc → ∃ doc', parseQuery P text' = .ok doc' ∧
      doc'.map unplaced = doc.map unplaced := by
    intro doc hd
    obtain ⟨vs, a1, a2, a3⟩ := (C127_reads_iff P text doc).1 hd
    cases C127_one_sequence k1 a1
    obtain ⟨doc', b1, b2⟩ := document_moved a3 us' m
    exact ⟨doc', (C127_reads_iff P text' doc').2 ⟨us', k2, by rw [m]; exact a2, b1⟩, b2⟩
  have back : ∀ doc, parseQuery P text' = .ok doc → ∃ doc', parseQuery P text = .ok doc' := by
    intro doc hd
    obtain ⟨vs, a1, a2, a3⟩ := (C127_reads_iff P text' doc).1 hd
    cases C127_one_sequence k2 a1
    obtain ⟨doc', b1, b2⟩ := document_moved a3 us m.symm
    exact ⟨doc', (C127_reads_iff P text doc').2 ⟨us, k1, by rw [← m]; exact a2, b1⟩⟩
  cases hp : parseQuery P text with
  | ok doc =>
    obtain ⟨doc', hp', e⟩ := forth doc hp
    rw [hp']
    exact e
  | error e =>
    cases hp' : parseQuery P text' with
    | ok doc' =>
      obtain ⟨doc, hp''⟩ := back doc' hp'
      rw [hp] at hp''
      cases hp''
    | error e' => trivial

theorem same_refl (x : Except String Document) : SameDefinitions x x := by
  cases x with
  | ok ds => rfl
  | error e => trivial

theorem renamed_of_same {x y : Except String Document} (h : SameDefinitions x y) : RenamedParse id x y := by
  cases x with
  | error e =>
    cases y with
    | error e' => trivial
    | ok ds => exact absurd h id
  | ok ds =>
    cases y with
    | error e' => exact absurd h id
    | ok ds' =>
      have h : ds'.map unplaced = ds.map unplaced := h
      show List.Forall₂ (RenamedDef id) ds ds'
      induction ds generalizing ds' with
      | nil =>
        cases ds' with
        | nil => exact .nil
        | cons => simp at h
      | cons d ds ih =>
        cases ds' with
        | nil => simp at h
        | cons d' ds' =>
          rw [List.map_cons, List.map_cons, List.cons.injEq] at h
          exact .cons (renamedDef_of_unplaced h.1) (ih _ h.2 h.2)

theorem relaid_same (P : ParserSetup) {text text' : String} (h : text = text' ∨ Relaid text text') :
    SameDefinitions (parseQuery P text) (parseQuery P text') := by
  rcases h with rfl | h
  · exact same_refl _
  · exact C128_same_definitions P h.tokens

theorem relaid_renamed (P : ParserSetup) (dist : String → String → Nat) {a b : Except String String}
    (h : RelaidRead a b) : RenamedRead (Ext.graphql P dist) id a b := by
  cases a with
  | error e =>
    cases b with
    | error e' => exact h
    | ok t => exact absurd h id
  | ok text =>
    cases b with
    | error e' => exact absurd h id
    | ok text' =>
      have h : text = text' ∨ Relaid text text' := h
      refine ⟨?_, renamed_of_same (relaid_same P h)⟩
      rcases h with rfl | h
      · rfl
      · exact h.imports

theorem relaid_names (P : ParserSetup) (dist : String → String → Nat) {w w' : World} {p : Path}
    (h : RelaidRead (w.read p) (w'.read p)) (d d' : Definition) (hd : OnlyDefinition (Ext.graphql P dist) w p d)
    (hd' : OnlyDefinition (Ext.graphql P dist) w' p d') : dataName d' = dataName d := by
  obtain ⟨c, h1, h2⟩ := hd
  obtain ⟨c', h3, h4⟩ := hd'
  rw [h1, h3] at h
  have h := relaid_same P (text := c) (text' := c') h
  have h2 : parseQuery P c = .ok [d] := h2
  have h4 : parseQuery P c' = .ok [d'] := h4
  rw [h2, h4] at h
  have h : [d'].map unplaced = [d].map unplaced := h
  simp only [List.map_cons, List.map_nil, List.cons.injEq, and_true] at h
  exact dataName_of_unplaced h

section
variable {P : ParserSetup} {dist : String → String → Nat} {cfg : CompileConfig} {w w' : World} {p : Path}

/-- **C128.** How the documents that compiling a file reads are laid out does not matter to its result. -/
theorem C128_file (ω : Hash) (fuel : Nat) (schema : Schema) (hR : RelaidFor cfg w w' p)
    (hu : FragmentNamesUnique (Ext.graphql P dist) w cfg p) :
    GeneratedSame (generateFile ω fuel (Ext.graphql P dist) cfg schema w p)
      (generateFile ω fuel (Ext.graphql P dist) cfg schema w' p) := by
  have hR' : RenamedFor (Ext.graphql P dist) id cfg w w' p :=
    ⟨hR.resolve, hR.writeErr, fun q hq => relaid_renamed P dist (hR.files q hq)⟩
  have h := C116_file ω fuel schema Function.injective_id hR' hu
  revert h
  generalize generateFile ω fuel (Ext.graphql P dist) cfg schema w p = x
  generalize generateFile ω fuel (Ext.graphql P dist) cfg schema w' p = y
  intro h
  match x, y, h with
  | none, none, _ => trivial
  | some .panic, some .panic, _ => trivial
  | some (.done (.error ms)), some (.done (.error ms')), h => exact h
  | some (.done (.ok (ms, c))), some (.done (.ok (ms', c'))), ⟨h1, h2, d, d', f, f', h3, h4, h5, h6, h7⟩ =>
    refine ⟨h1, h2, ?_⟩
    rw [relaid_names P dist (hR.files p .self) d d' h3 h4] at h5
    rw [h6, h7, fileRenamed_refl h5]

variable {root : Entry} {rootPath : Path} {schema : Schema} {doc : JSchema}

theorem project_relaid (H : ProjectRelaid cfg root w w') : ProjectRenamed (Ext.graphql P dist) id cfg root w w' :=
  ⟨H.resolve, H.writeErr, fun p q hp hq => relaid_renamed P dist (H.files p q hp hq), H.others⟩

/-- **C128.** A project that compiles without errors still does after its documents have been laid out in another way,
to the same files. -/
theorem C128_relaid_and_rerun {ω₁ ω₂ : Path → Hash} {ω₁' ω₂' : Hash} {fuel₁ fuel₂ threads₁ threads₂ : Nat}
    {s₁ s₂ : PoolSt World} {ms₁ ms₂ : List Msg} {w₁ w₂ : World} (paint : Paint)
    (hr : NoOutputRead w cfg root) (hd : OutputsDistinct w root) (hg : GlobalsApart w cfg rootPath root)
    (hv : ValidDoc doc) (hs : Schema.ofJson doc = .ok schema) (H : ProjectRelaid cfg root w w')
    (hh : ∀ p, FoundIn root p → HashProof (Ext.graphql P dist) schema w cfg p)
    (R₁ : RunsTo ω₁ ω₁' fuel₁ (Ext.graphql P dist) cfg schema rootPath root threads₁ w s₁ ms₁ w₁)
    (R₂ : RunsTo ω₂ ω₂' fuel₂ (Ext.graphql P dist) cfg schema rootPath root threads₂ w' s₂ ms₂ w₂)
    (h0 : (printExitInfo paint ms₁).code = 0) :
    (printExitInfo paint ms₂).code = 0 ∧
    (∀ p, FoundIn root p → w₂.disk (w.resolve (outputPath p)) = w₁.disk (w.resolve (outputPath p))) ∧
    w₂.disk (globalsId w cfg rootPath) = w₁.disk (globalsId w cfg rootPath) := by
  have H' := project_relaid (P := P) (dist := dist) H
  obtain ⟨h1, _, h3⟩ := C116_rename_and_rerun paint hr hd hg hv hs Function.injective_id H' hh R₁ R₂ h0
  refine ⟨h1, fun p hp => ?_, h3⟩
  exact C116_users_unchanged paint hr hd hg hv hs Function.injective_id H' hh R₁ R₂ h0 p hp
    (relaid_names P dist (H.files p p hp .self))

end

/-! ### Examples -/

mutual
/-- Whether two selections are equal. -/
def eqSelB : Selection → Selection → Bool
  | .field pos al n args dirs items, .field pos' al' n' args' dirs' items' =>
    decide (pos = pos' ∧ al = al' ∧ n = n' ∧ args = args' ∧ dirs = dirs') && eqSelsB items items'
  | .inline pos cond dirs items, .inline pos' cond' dirs' items' =>
    decide (pos = pos' ∧ cond = cond' ∧ dirs = dirs') && eqSelsB items items'
  | .spread pos n dirs, .spread pos' n' dirs' => decide (pos = pos' ∧ n = n' ∧ dirs = dirs')
  | _, _ => false
/-- Whether two selection sets are equal. -/
def eqSelsB : List Selection → List Selection → Bool
  | [], [] => true
  | s :: l, s' :: l' => eqSelB s s' && eqSelsB l l'
  | _, _ => false
end

mutual
theorem eqSelB_sound : ∀ s s', eqSelB s s' = true → s = s'
  | .field .., s', h => by
    cases s' with
    | field =>
      simp only [eqSelB, Bool.and_eq_true, decide_eq_true_eq] at h
      obtain ⟨⟨rfl, rfl, rfl, rfl, rfl⟩, h⟩ := h
      rw [eqSelsB_sound _ _ h]
    | «inline» => simp [eqSelB] at h
    | spread => simp [eqSelB] at h
  | .inline .., s', h => by
    cases s' with
    | «inline» =>
      simp only [eqSelB, Bool.and_eq_true, decide_eq_true_eq] at h
      obtain ⟨⟨rfl, rfl, rfl⟩, h⟩ := h
      rw [eqSelsB_sound _ _ h]
    | field => simp [eqSelB] at h
    | spread => simp [eqSelB] at h
  | .spread .., s', h => by
    cases s' with
    | spread =>
      simp only [eqSelB, decide_eq_true_eq] at h
      obtain ⟨rfl, rfl, rfl⟩ := h
      rfl
    | field => simp [eqSelB] at h
    | «inline» => simp [eqSelB] at h
theorem eqSelsB_sound : ∀ l l', eqSelsB l l' = true → l = l'
  | [], l', h => by
    cases l' with
    | nil => rfl
    | cons => simp [eqSelsB] at h
  | s :: l, l', h => by
    cases l' with
    | nil => simp [eqSelsB] at h
    | cons s' l' =>
      simp only [eqSelsB, Bool.and_eq_true] at h
      rw [eqSelB_sound s s' h.1, eqSelsB_sound l l' h.2]
end

/-- Whether two definitions are equal. -/
def eqDefB : Definition → Definition → Bool
  | .selectionSet pos items, .selectionSet pos' items' => decide (pos = pos') && eqSelsB items items'
  | .operation kw pos name vars dirs items, .operation kw' pos' name' vars' dirs' items' =>
    decide (kw = kw' ∧ pos = pos' ∧ name = name' ∧ vars = vars' ∧ dirs = dirs') && eqSelsB items items'
  | .fragment f, .fragment f' =>
    decide (f.pos = f'.pos ∧ f.name = f'.name ∧ f.typeCond = f'.typeCond ∧ f.dirs = f'.dirs) && eqSelsB f.items f'.items
  | _, _ => false

theorem eqDefB_sound {d d' : Definition} (h : eqDefB d d' = true) : d = d' := by
  cases d with
  | selectionSet =>
    cases d' with
    | selectionSet =>
      simp only [eqDefB, Bool.and_eq_true, decide_eq_true_eq] at h
      rw [h.1, eqSelsB_sound _ _ h.2]
    | operation => simp [eqDefB] at h
    | fragment => simp [eqDefB] at h
  | operation =>
    cases d' with
    | operation =>
      simp only [eqDefB, Bool.and_eq_true, decide_eq_true_eq] at h
      obtain ⟨⟨rfl, rfl, rfl, rfl, rfl⟩, h⟩ := h
      rw [eqSelsB_sound _ _ h]
    | selectionSet => simp [eqDefB] at h
    | fragment => simp [eqDefB] at h
  | fragment f =>
    cases d' with
    | fragment f' =>
      obtain ⟨_, _, _, _, _⟩ := f
      obtain ⟨_, _, _, _, _⟩ := f'
      simp only [eqDefB, Bool.and_eq_true, decide_eq_true_eq] at h
      obtain ⟨⟨rfl, rfl, rfl, rfl⟩, h⟩ := h
      rw [eqSelsB_sound _ _ h]
    | selectionSet => simp [eqDefB] at h
    | operation => simp [eqDefB] at h

/-- Whether a text holds this definition and no other. -/
def holdsOnlyB (P : ParserSetup) (text : String) (d : Definition) : Bool :=
  match parseQuery P text with
  | .ok [d'] => eqDefB d' d
  | _ => false

theorem holdsOnlyB_sound {P : ParserSetup} {text : String} {d : Definition} (h : holdsOnlyB P text d = true) :
    parseQuery P text = .ok [d] := by
  unfold holdsOnlyB at h
  split at h
  · rename_i d' e
    rw [e, eqDefB_sound h]
  · simp at h

/-- Line and column, both counted from 1, of what is left of a text. -/
def Demo.lineColumn (all rest : List Char) : Pos :=
  (all.take (all.length - rest.length)).foldl
    (fun p c => if c = '\n' then ⟨p.line + 1, 1⟩ else ⟨p.line, p.column + 1⟩) ⟨1, 1⟩

/-- The parser that counts lines and columns and refuses nothing. -/
def Demo.parser : ParserSetup := ⟨Demo.lineColumn, fun _ => false, fun _ => "syntax error"⟩

/-- The text of the demo query. -/
def Demo.queryText : String := "#import \"f.graphql\"
query Q($n: Int!,  $f: Filter) {
  node {
    __typename
    id
    ...F
    ... on User { role old } }
  me: viewer {friends { id }}
}
"

/-- The text of the demo fragment. -/
def Demo.fragmentText : String := "fragment F on Node{name}"

theorem query_text : parseQuery Demo.parser Demo.queryText = .ok [Demo.query] :=
  holdsOnlyB_sound (by decide +kernel)

theorem fragment_text : parseQuery Demo.parser Demo.fragmentText = .ok [.fragment Demo.fragF] :=
  holdsOnlyB_sound (by decide +kernel)

theorem demo_tokens {text : String} {doc : Document} (h : parseQuery Demo.parser text = .ok doc) :
    ∃ ts, TokensOf (Demo.lineColumn text.toList) text.toList ts ∧ IsDocument doc ts := by
  obtain ⟨ts, h1, _, h2⟩ := (C127_reads_iff Demo.parser text doc).1 h
  exact ⟨ts, h1, h2⟩

/-- The texts of the demo documents are documents by the grammar. -/
theorem C127_demo : (∃ ts, TokensOf (Demo.lineColumn Demo.queryText.toList) Demo.queryText.toList ts ∧
      IsDocument [Demo.query] ts) ∧
    ∃ ts, TokensOf (Demo.lineColumn Demo.fragmentText.toList) Demo.fragmentText.toList ts ∧
      IsDocument [.fragment Demo.fragF] ts :=
  ⟨demo_tokens query_text, demo_tokens fragment_text⟩

/-- Whether a text is no document. -/
def notDocumentB (text : String) : Bool :=
  match parseQuery Demo.parser text with
  | .error _ => true
  | _ => false

/-- Texts that are no documents. -/
example : (["", "# nothing", "query Q", "query Q { }", "{ a", "{ a } }", "{ a: }", "{ a() }", "{ ...on }", "{ a(b: $) }",
    "query Q() { a }", "query Q($a: Int = $b) { a }", "query Q($a: Int!!) { a }", "fragment F { a }", "type T { a: Int }",
    "{ a(b: 01) }", "{ a(b: \"\\x\") }", "{ a(b: \"c) }", "{ a ; }", "{ a(b: 1c) }"].all notDocumentB) = true := by
  decide +kernel

/-- Texts that are documents. -/
example : (["{a}", "query{a,b}", "mutation M{a(b:[1,2.5e3,{c:\"d\\u00e9\",e:null}])@x@y(z:true){b}}",
    "subscription($a:[Int!]!=[1]){a}", "{a}query B{...C@c,...{d}...@e{f}...on G{h}}fragment C on D@e{f}",
    "{ a(b: \"\"\"c \"\" \\\"\"\" d\"\"\") }", "{ on: fragment query }"].any notDocumentB) = false := by decide +kernel

/-- The demo query, laid out in another way and commented. -/
def Demo.queryRelaid : String := "#import \"f.graphql\"
query Q ( $n : Int !
        , $f : Filter   # not needed
        )
{ node { __typename, id, ... F, ...on User{role,old} },
  me : viewer { friends { id } } } # end"

/-- The demo fragment, laid out in another way. -/
def Demo.fragmentRelaid : String := "\n\n  fragment F on Node {\n    name,\n  }\n"

/-- Two texts with the tokens that the model finds are laid out in different ways. -/
theorem sameTokens_of_check {text text' : String}
    (h : ((lexAll (fun _ => ⟨0, 0⟩) (text.toList.length + 1) text.toList).map (List.map Prod.snd) =
      (lexAll (fun _ => ⟨0, 0⟩) (text'.toList.length + 1) text'.toList).map (List.map Prod.snd)) ∧
      (lexAll (fun _ => ⟨0, 0⟩) (text.toList.length + 1) text.toList).isSome = true) : SameTokens text text' := by
  obtain ⟨h, hs⟩ := h
  obtain ⟨ts, e⟩ := Option.isSome_iff_exists.1 hs
  rw [e] at h
  cases e' : lexAll (fun _ => ⟨0, 0⟩) (text'.toList.length + 1) text'.toList with
  | none => rw [e'] at h; cases h
  | some ts' =>
    rw [e'] at h
    exact ⟨_, _, ts, ts', lexAll_iff.1 e, lexAll_iff.1 e', Option.some.inj h⟩

theorem imports_of_check {text text' : String}
    (h : (importsOf text').map (fun l => (l.number, l.line, l.after)) =
      (importsOf text).map (fun l => (l.number, l.line, l.after))) : importsOf text' = importsOf text :=
  List.map_injective_iff.2 (fun a b h => by obtain ⟨_, _, _⟩ := a; obtain ⟨_, _, _⟩ := b; simp_all) h

theorem query_relaid : Relaid Demo.queryText Demo.queryRelaid :=
  ⟨imports_of_check (by decide +kernel), sameTokens_of_check (by decide +kernel)⟩

theorem fragment_relaid : Relaid Demo.fragmentText Demo.fragmentRelaid :=
  ⟨imports_of_check (by decide +kernel), sameTokens_of_check (by decide +kernel)⟩

/-- A word that is cut in two is another text. -/
example : ¬ SameTokens "{ ab }" "{ a b }" := by
  rintro ⟨place, place', ts, ts', h1, h2, h3⟩
  obtain ⟨us, k1, m1⟩ := tokens_anywhere (place' := fun _ => ⟨0, 0⟩) h1
  obtain ⟨us', k2, m2⟩ := tokens_anywhere (place' := fun _ => ⟨0, 0⟩) h2
  rw [← lexAll_iff] at k1 k2
  have m : (some us).map (List.map Prod.snd) = (some us').map (List.map Prod.snd) := by
    unfold Moved at m1 m2
    simp only [Option.map_some, m1, m2, h3]
  rw [← k1, ← k2] at m
  revert m
  decide +kernel

/-- `/r/q.graphql` and `/r/f.graphql` with these texts. -/
def Demo.textWorld (q f : String) : World where
  resolve := Path.display
  disk := fun id => if id = "/r/q.graphql" then .ok q else if id = "/r/f.graphql" then .ok f else .error "missing"
  writeErr := fun _ => none

/-- The parser as part of the external functions. -/
def Demo.textExt : Ext := Ext.graphql Demo.parser Demo.runExt.dist

/-- The stand-in for the parser on its texts, the parser on others. -/
def Demo.bothExt : Ext where
  parse := fun c => if c = Demo.runText ∨ c = "fragment F" then Demo.runExt.parse c else parseQuery Demo.parser c
  dist := Demo.runExt.dist

theorem bothExt_text {text : String} {ds : Document} (h1 : text ≠ Demo.runText) (h2 : text ≠ "fragment F")
    (h : parseQuery Demo.parser text = .ok ds) : Demo.bothExt.parse text = .ok ds := by
  simp only [Demo.bothExt, h1, h2, or_self, if_false, h]

theorem renamed_same {ext : Ext} {text text' : String} {ds : Document} {a b : Except String String} (ha : a = .ok text)
    (hb : b = .ok text') (hi : importsOf text' = importsOf text) (h : ext.parse text = .ok ds)
    (h' : ext.parse text' = .ok ds) : RenamedRead ext id a b := by
  rw [ha, hb]
  refine ⟨hi, ?_⟩
  rw [h, h']
  exact renamed_of_same (same_refl _)

theorem textWorld_q (q f : String) : (Demo.textWorld q f).read Demo.qPath = .ok q := rfl

theorem textWorld_f (q f : String) : (Demo.textWorld q f).read Demo.fPath = .ok f := rfl

theorem textExt_text {text : String} {ds : Document} {ext : Ext} {text' : String}
    (h : parseQuery Demo.parser text = .ok ds) (h' : ext.parse text' = .ok ds) :
    Demo.textExt.parse text = ext.parse text' := by
  rw [h']
  exact h

theorem text_renamed : ProjectRenamed Demo.bothExt id Demo.cfg Demo.fileTree Demo.runWorld
    (Demo.textWorld Demo.queryText Demo.fragmentText) := by
  refine ⟨rfl, rfl, ?_, ?_⟩
  · intro p q hp hq
    rcases full_reads (demo_found hp) hq with rfl | rfl
    · have h1 : Demo.bothExt.parse Demo.runText = .ok [Demo.query] := by simp [Demo.bothExt, Demo.runExt]
      exact renamed_same (text := Demo.runText) rfl (textWorld_q _ _) (imports_of_check (by decide +kernel)) h1
        (bothExt_text (by decide +kernel) (by decide +kernel) query_text)
    · have h1 : Demo.bothExt.parse "fragment F" = .ok [.fragment Demo.fragF] := rfl
      exact renamed_same (text := "fragment F") rfl (textWorld_f _ _) (imports_of_check (by decide +kernel)) h1
        (bothExt_text (by decide +kernel) (by decide +kernel) fragment_text)
  · intro id h
    have h1 : id ≠ "/r/q.graphql" := by
      rintro rfl
      exact h Demo.qPath Demo.qPath ((mem_filesOf _ _).1 (by decide +kernel)) .self (by decide +kernel)
    have h2 : id ≠ "/r/f.graphql" := by
      rintro rfl
      exact h Demo.fPath Demo.fPath ((mem_filesOf _ _).1 (by decide +kernel)) .self (by decide +kernel)
    simp [Demo.textWorld, Demo.runWorld, h1, h2]

/-- Two file systems whose files have the same imports and the same definitions, to two parsers. -/
def SameReading (ext ext' : Ext) (w w' : World) : Prop :=
  ∀ q, match w.read q, w'.read q with
    | .ok c, .ok c' => importsOf c' = importsOf c ∧ ext'.parse c' = ext.parse c
    | .error _, .error _ => True
    | _, _ => False

theorem sameReading_read {ext ext' : Ext} {w w' : World} (h : SameReading ext ext' w w') {q : Path} {c : String}
    (hq : w.read q = .ok c) : ∃ c', w'.read q = .ok c' ∧ importsOf c' = importsOf c ∧ ext'.parse c' = ext.parse c := by
  have := h q
  rw [hq] at this
  cases e : w'.read q with
  | ok c' => rw [e] at this; exact ⟨c', rfl, this.1, this.2⟩
  | error x => rw [e] at this; exact absurd this id

theorem sameReading_symm {ext ext' : Ext} {w w' : World} (h : SameReading ext ext' w w') : SameReading ext' ext w' w := by
  intro q
  have := h q
  revert this
  cases w.read q <;> cases w'.read q <;> intro this
  · trivial
  · exact this
  · exact this
  · exact ⟨this.1.symm, this.2.symm⟩

theorem sameReading_loads {ext ext' : Ext} {w w' : World} {cfg : CompileConfig} (h : SameReading ext ext' w w') {p q : Path}
    {c : String} (hl : Loads w cfg p c q) : ∀ c', importsOf c' = importsOf c → Loads w' cfg p c' q := by
  induction hl with
  | direct hi hr =>
    intro c' e
    obtain ⟨t, h1, _⟩ := sameReading_read h hr
    exact .direct ⟨by rw [e]; exact hi.1, hi.2⟩ h1
  | trans hi hr _ ih =>
    intro c' e
    obtain ⟨t, h1, h2, _⟩ := sameReading_read h hr
    exact .trans ⟨by rw [e]; exact hi.1, hi.2⟩ h1 (ih t h2)

theorem sameReading_imported {ext ext' : Ext} {w w' : World} {cfg : CompileConfig} (h : SameReading ext ext' w w') {p : Path}
    {c c' : String} (e : importsOf c' = importsOf c) {f : FragmentDef} (hf : ImportedFragment ext w cfg p c f) :
    ImportedFragment ext' w' cfg p c' f := by
  obtain ⟨q, t, h1, h2, h3⟩ := hf
  obtain ⟨t', k1, _, k3⟩ := sameReading_read h h2
  exact ⟨q, t', sameReading_loads h h1 c' e, k1, by rw [k3]; exact h3⟩

theorem sameReading_hashProof {ext ext' : Ext} {w w' : World} {cfg : CompileConfig} {schema : Schema} {p : Path}
    (h : SameReading ext ext' w w') (hh : HashProof ext schema w cfg p) : HashProof ext' schema w' cfg p := by
  intro c' d hr hd
  have hs := sameReading_symm h
  obtain ⟨c, k1, k2, k3⟩ := sameReading_read hs hr
  obtain ⟨h1, h2, h3⟩ := hh c d k1 (by rw [k3]; exact hd)
  refine ⟨fun f f' a b => h1 f f' (sameReading_imported hs k2 a) (sameReading_imported hs k2 b),
    fun frags hs' => h2 frags (fun n f => ?_), h3⟩
  rw [hs' n f]
  exact and_congr_right (fun _ => ⟨sameReading_imported hs k2, sameReading_imported h k2.symm⟩)

theorem text_sameReading : SameReading Demo.runExt Demo.textExt Demo.runWorld
    (Demo.textWorld Demo.queryText Demo.fragmentText) := by
  intro q
  unfold World.read Demo.runWorld Demo.textWorld
  simp only
  by_cases h1 : Path.display q = "/r/q.graphql"
  · rw [if_pos h1, if_pos h1]
    exact ⟨imports_of_check (by decide +kernel), textExt_text query_text (by simp [Demo.runExt])⟩
  · rw [if_neg h1, if_neg h1]
    by_cases h2 : Path.display q = "/r/f.graphql"
    · rw [if_pos h2, if_pos h2]
      exact ⟨imports_of_check (by decide +kernel), textExt_text fragment_text rfl⟩
    · rw [if_neg h2, if_neg h2]
      trivial

theorem text_relaid : ProjectRelaid Demo.cfg Demo.fileTree (Demo.textWorld Demo.queryText Demo.fragmentText)
    (Demo.textWorld Demo.queryRelaid Demo.fragmentRelaid) := by
  refine ⟨rfl, rfl, ?_, ?_⟩
  · intro p q _ _
    unfold World.read Demo.textWorld
    simp only
    by_cases h1 : Path.display q = "/r/q.graphql"
    · rw [if_pos h1, if_pos h1]
      exact .inr query_relaid
    · rw [if_neg h1, if_neg h1]
      by_cases h2 : Path.display q = "/r/f.graphql"
      · rw [if_pos h2, if_pos h2]
        exact .inr fragment_relaid
      · rw [if_neg h2, if_neg h2]
        rfl
  · intro id h
    have h1 : id ≠ "/r/q.graphql" := by
      rintro rfl
      exact h Demo.qPath Demo.qPath ((mem_filesOf _ _).1 (by decide +kernel)) .self (by decide +kernel)
    have h2 : id ≠ "/r/f.graphql" := by
      rintro rfl
      exact h Demo.fPath Demo.fPath ((mem_filesOf _ _).1 (by decide +kernel)) .self (by decide +kernel)
    simp [Demo.textWorld, h1, h2]

/-- The pool after a run on these texts. -/
def textRun (q f : String) : PoolSt World :=
  (PoolSt.init (Demo.textWorld q f) 1 Demo.fileTree).run
    (poolCompile (fun _ => .inOrder) 9 Demo.textExt Demo.cfg Demo.respSchema) 1 Demo.fileSched

/-- The end of the run. -/
def textEnd (q f : String) : Option (List Msg × World) :=
  finishWork .reversed 9 Demo.cfg Demo.respSchema (textRun q f).world ⟨true, ["r"]⟩ (textRun q f).aggregate

/-- The demo project is compiled from its texts, these are laid out in another way, and it is compiled again: the
generated files are the same. -/
theorem C128_demo : ∃ s₁ s₂ ms₁ ms₂ w₁ w₂ t,
    RunsTo (fun _ => .inOrder) .reversed 9 Demo.textExt Demo.cfg Demo.respSchema ⟨true, ["r"]⟩ Demo.fileTree 1
      (Demo.textWorld Demo.queryText Demo.fragmentText) s₁ ms₁ w₁ ∧
    RunsTo (fun _ => .inOrder) .reversed 9 Demo.textExt Demo.cfg Demo.respSchema ⟨true, ["r"]⟩ Demo.fileTree 1
      (Demo.textWorld Demo.queryRelaid Demo.fragmentRelaid) s₂ ms₂ w₂ ∧
    (printExitInfo .plain ms₁).code = 0 ∧ (printExitInfo .plain ms₂).code = 0 ∧
    w₂.disk "/r/q.graphql.d.ts" = w₁.disk "/r/q.graphql.d.ts" ∧
    w₂.disk "/r/f.graphql.d.ts" = w₁.disk "/r/f.graphql.d.ts" ∧
    w₁.disk "/r/globals.ts" = .ok t ∧ w₂.disk "/r/globals.ts" = .ok t := by
  obtain ⟨_, _, _, _, _, hno, hd, hga, _⟩ := C89_demo
  obtain ⟨hno, hd, hga⟩ := conditions_renamed text_renamed hno hd hga
  have a1 : (endsWith (textRun Demo.queryText Demo.fragmentText)
    (textEnd Demo.queryText Demo.fragmentText)).isSome = true := by decide +kernel
  have a2 : (endsWith (textRun Demo.queryRelaid Demo.fragmentRelaid)
    (textEnd Demo.queryRelaid Demo.fragmentRelaid)).isSome = true := by decide +kernel
  obtain ⟨t₁, b1⟩ := Option.isSome_iff_exists.1 a1
  obtain ⟨t₂, b2⟩ := Option.isSome_iff_exists.1 a2
  obtain ⟨ms₁, w₁, e₁, h1, h2, h5, d1⟩ := endsWith_some b1
  obtain ⟨ms₂, w₂, e₂, h3, h4, _, d2⟩ := endsWith_some b2
  have R₁ : RunsTo (fun _ => .inOrder) .reversed 9 Demo.textExt Demo.cfg Demo.respSchema ⟨true, ["r"]⟩ Demo.fileTree 1
      (Demo.textWorld Demo.queryText Demo.fragmentText) _ ms₁ w₁ := ⟨⟨_, rfl⟩, h1, h2, e₁⟩
  have R₂ : RunsTo (fun _ => .inOrder) .reversed 9 Demo.textExt Demo.cfg Demo.respSchema ⟨true, ["r"]⟩ Demo.fileTree 1
      (Demo.textWorld Demo.queryRelaid Demo.fragmentRelaid) _ ms₂ w₂ := ⟨⟨_, rfl⟩, h3, h4, e₂⟩
  obtain ⟨c1, c2, c3⟩ := C128_relaid_and_rerun .plain hno hd hga resp_valid resp_loads text_relaid
    (fun p hp => sameReading_hashProof text_sameReading (run_hashProof hp)) R₁ R₂ h5
  have hq := c2 Demo.qPath ((mem_filesOf _ _).1 (by decide +kernel))
  have hf := c2 Demo.fPath ((mem_filesOf _ _).1 (by decide +kernel))
  have oq : (Demo.textWorld Demo.queryText Demo.fragmentText).resolve (outputPath Demo.qPath) = "/r/q.graphql.d.ts" := by
    decide +kernel
  have of' : (Demo.textWorld Demo.queryText Demo.fragmentText).resolve (outputPath Demo.fPath) = "/r/f.graphql.d.ts" := by
    decide +kernel
  have og : globalsId (Demo.textWorld Demo.queryText Demo.fragmentText) Demo.cfg ⟨true, ["r"]⟩ = "/r/globals.ts" := by
    decide +kernel
  rw [oq] at hq
  rw [of'] at hf
  rw [og, d1] at c3
  exact ⟨_, _, ms₁, ms₂, w₁, w₂, t₁, R₁, R₂, h5, c1, hq, hf, d1, c3⟩

end Qlc
