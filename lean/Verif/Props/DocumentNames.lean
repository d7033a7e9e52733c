import Verif.Spec.DocumentNames
import Verif.Props.Guideline
import Verif.Props.CutText
/-
C130: the names in documents.
-/
set_option autoImplicit false

namespace Qlc
open Spec

theorem nameStart_ident : ∀ c ∈ "abcdefghijklmnopqrstuvwxyzABCDEFGHIJKLMNOPQRSTUVWXYZ_".toList,
    (c.isAlphanum = true ∨ c = '_') ∧ c.isDigit = false := by decide +kernel

theorem digit_ident : ∀ c ∈ "0123456789".toList, c.isAlphanum = true := by decide +kernel

theorem gqlName_of_chars {c : Char} {cs : List Char} (hc : NameStart c) (hcs : ∀ d ∈ cs, NameStart d ∨ Digit d) :
    IsGqlName (String.ofList (c :: cs)) := by
  have h : ∀ d ∈ c :: cs, d.isAlphanum = true ∨ d = '_' := by
    intro d hd
    rcases List.mem_cons.1 hd with rfl | hd
    · exact (nameStart_ident _ hc).1
    · rcases hcs d hd with h | h
      · exact (nameStart_ident _ h).1
      · exact .inl (digit_ident _ h)
  unfold IsGqlName IsIdent IsName
  rw [String.toList_ofList]
  refine ⟨⟨⟨c, rfl, (nameStart_ident _ hc).2⟩, fun d hd => ?_⟩, by simp, h⟩
  rcases h d hd with h | h
  · exact .inl h
  · exact .inr (.inl h)

/-- The names among tokens have this property. -/
def NamesAre (Q : String → Prop) (ts : Toks) : Prop := ∀ p s, (p, GTok.name s) ∈ ts → Q s

theorem tokens_names {place : List Char → Pos} {cs : List Char} {ts : Toks} (h : TokensOf place cs ts) :
    NamesAre IsGqlName ts := by
  induction h with
  | done _ => intro p s h; simp at h
  | more _ ht _ _ ih =>
    intro p s h
    rcases List.mem_cons.1 h with h | h
    · simp only [Prod.mk.injEq] at h
      obtain ⟨_, rfl⟩ := h
      cases ht with
      | name hc hcs => exact gqlName_of_chars hc hcs
    · exact ih p s h

section
variable {Q : String → Prop}

theorem names_left {a b : Toks} (h : NamesAre Q (a ++ b)) : NamesAre Q a :=
  fun p s hm => h p s (List.mem_append_left _ hm)

theorem names_right {a b : Toks} (h : NamesAre Q (a ++ b)) : NamesAre Q b :=
  fun p s hm => h p s (List.mem_append_right _ hm)

theorem names_tail {x : Pos × GTok} {b : Toks} (h : NamesAre Q (x :: b)) : NamesAre Q b :=
  fun p s hm => h p s (List.mem_cons_of_mem _ hm)

/-- The response keys of selections. -/
def pieceKeys : SelPiece → List String
  | .one s => fieldKeysSel s
  | .many ss => fieldKeys ss

theorem fieldName_key {pos : Pos} {al : Option String} {n : String} {ts : Toks} (h : IsFieldName pos al n ts)
    (hq : NamesAre Q ts) : Q (al.getD n) := by
  cases h with
  | plain => exact hq _ _ (List.mem_cons_self ..)
  | aliased => exact hq _ _ (List.mem_cons_self ..)

theorem selects_keys {x : SelPiece} {ts : Toks} (h : Selects x ts) : NamesAre Q ts → ∀ k ∈ pieceKeys x, Q k := by
  induction h with
  | field hn _ _ =>
    intro hq k hk
    simp only [pieceKeys, fieldKeysSel, fieldKeys, List.mem_singleton] at hk
    rw [hk]
    exact fieldName_key hn (names_left hq)
  | fieldWith hn _ _ _ ih =>
    intro hq k hk
    simp only [pieceKeys, fieldKeysSel, List.mem_cons] at hk
    rcases hk with rfl | hk
    · exact fieldName_key hn (names_left hq)
    · exact ih (names_left (names_tail (names_right (names_right (names_right hq))))) k hk
  | inline _ _ _ _ ih =>
    intro hq k hk
    exact ih (names_left (names_tail (names_right (names_right (names_tail hq))))) k hk
  | spread _ _ =>
    intro _ k hk
    simp [pieceKeys, fieldKeysSel] at hk
  | last _ ih =>
    intro hq k hk
    simp only [pieceKeys, fieldKeys, List.append_nil] at hk
    exact ih hq k hk
  | more _ _ ih₁ ih₂ =>
    intro hq k hk
    simp only [pieceKeys, fieldKeys, List.mem_append] at hk
    rcases hk with hk | hk
    · exact ih₁ (names_left hq) k hk
    · exact ih₂ (names_right hq) k hk

theorem selectionSet_keys {pos : Pos} {items : List Selection} {ts : Toks} (h : IsSelectionSet pos items ts)
    (hq : NamesAre Q ts) : ∀ k ∈ fieldKeys items, Q k := by
  obtain ⟨p', inner, hs, rfl⟩ := h
  exact selects_keys hs (names_left (names_tail hq))

theorem varDefs_names {vs : List VarDef} {ts : Toks} (h : IsVarDefs vs ts) : NamesAre Q ts → ∀ v ∈ vs, Q v.name := by
  have one : ∀ {v : VarDef} {ts : Toks}, IsVarDef v ts → NamesAre Q ts → Q v.name := by
    intro v ts h hq
    cases h with
    | mk _ _ => exact hq _ _ (List.mem_cons_of_mem _ (List.mem_cons_self ..))
  induction h with
  | last hv =>
    intro hq v hm
    rw [List.mem_singleton] at hm
    rw [hm]
    exact one hv hq
  | more hv _ ih =>
    intro hq v hm
    rcases List.mem_cons.1 hm with rfl | hm
    · exact one hv (names_left hq)
    · exact ih (names_right hq) v hm

theorem variables_names {vs : List VarDef} {ts : Toks} (h : IsVariables vs ts) (hq : NamesAre Q ts) :
    ∀ v ∈ vs, Q v.name := by
  cases h with
  | none => intro v hm; simp at hm
  | some hv => exact varDefs_names hv (names_left (names_tail hq))

/-- The names of a definition: its own, if it has one, those of its variables and its response keys. -/
structure DefNames (Q : String → Prop) (d : Definition) : Prop where
  keys : ∀ k ∈ fieldKeys (itemsOf d), Q k
  vars : ∀ v ∈ varsOf d, Q v.name
  own : (∃ pos items, d = .selectionSet pos items) ∨ dataName d ∈ ["Query", "Mutation", "Subscription"] ∨ Q (dataName d)

theorem definition_names {d : Definition} {ts : Toks} (h : IsDefinition d ts) (hq : NamesAre Q ts) : DefNames Q d := by
  cases h with
  | selectionSet hs => exact ⟨selectionSet_keys hs hq, fun v hm => by simp [varsOf] at hm, .inl ⟨_, _, rfl⟩⟩
  | @operation kw _ _ _ _ _ _ _ _ _ _ hn hv _ hs =>
    have hq := names_tail hq
    refine ⟨selectionSet_keys hs (names_right (names_right (names_right hq))),
      variables_names hv (names_left (names_right hq)), .inr ?_⟩
    cases hn with
    | none => cases kw <;> simp [dataName]
    | some =>
      have := hq _ _ (List.mem_append_left _ (List.mem_cons_self ..))
      cases kw <;> exact .inr this
  | fragment _ hs =>
    refine ⟨selectionSet_keys hs (names_right (names_tail (names_tail (names_tail (names_tail hq))))),
      fun v hm => by simp [varsOf] at hm, .inr (.inr ?_)⟩
    exact hq _ _ (List.mem_cons_of_mem _ (List.mem_cons_self ..))

theorem document_names {ds : Document} {ts : Toks} (h : IsDocument ds ts) : NamesAre Q ts → ∀ d ∈ ds, DefNames Q d := by
  induction h with
  | last hd =>
    intro hq d hm
    rw [List.mem_singleton] at hm
    rw [hm]
    exact definition_names hd hq
  | more hd _ ih =>
    intro hq d hm
    rcases List.mem_cons.1 hm with rfl | hm
    · exact definition_names hd (names_left hq)
    · exact ih (names_right hq) d hm

end

/-! ### C130 -/

/-- **C130.** The response keys and variables in a document that was read from a text, and its operations and
fragments, have GraphQL names: letters, digits and underscores, beginning with no digit. -/
theorem C130_names (P : ParserSetup) {text : String} {ds : Document} (h : parseQuery P text = .ok ds) :
    ∀ d ∈ ds, (∀ k ∈ fieldKeys (itemsOf d), IsGqlName k) ∧ (∀ v ∈ varsOf d, IsGqlName v.name) ∧
      ((∃ pos items, d = .selectionSet pos items) ∨ IsGqlName (dataName d)) := by
  intro d hd
  obtain ⟨ts, h1, _, h3⟩ := (C127_reads_iff P text ds).1 h
  obtain ⟨k1, k2, k3⟩ := document_names h3 (tokens_names h1) d hd
  refine ⟨k1, k2, ?_⟩
  rcases k3 with k | k | k
  · exact .inl k
  · right
    have : ∀ s ∈ ["Query", "Mutation", "Subscription"], IsGqlName s := by decide +kernel
    exact this _ k
  · exact .inr k

/-- **C130.** So of the names in a file, only that of its definition can make the generated text invalid. -/
theorem C130_names_fit (P : ParserSetup) (dist : String → String → Nat) {w : World} {cfg : CompileConfig} {tcfg : TsConfig}
    {doc : JSchema} {p : Path} {contents : String} {d : Definition} {frags : Frags}
    (hp : parseQuery P contents = .ok [d]) (hs : InScope (Ext.graphql P dist) w cfg p contents frags)
    (hn : ∀ pos items, d ≠ .selectionSet pos items) (hf : NameFree tcfg doc d) : NamesFit tcfg doc frags d := by
  obtain ⟨h1, h2, h3⟩ := C130_names P hp d (List.mem_singleton_self d)
  have h3 : IsGqlName (dataName d) := h3.resolve_left (fun ⟨pos, items, e⟩ => hn pos items e)
  refine ⟨⟨h3.1, hf.notReserved, hf.notPredefined⟩, h1, ?_, h2, hf.apart⟩
  intro name fd hget
  obtain ⟨_, q, c, _, _, hq⟩ := (hs name fd).1 hget
  exact (C130_names P hq _ (List.mem_singleton_self _)).1

section
variable {ω : Path → Hash} {ω' : Hash} {fuel threads : Nat} {P : ParserSetup} {dist : String → String → Nat}
  {cfg : CompileConfig} {w : World} {root : Entry} {rootPath : Path} {cwd : List String} {doc : JSchema} {schema : Schema}

theorem ruled_of_text (F : ProjectFine (Ext.graphql P dist) w cfg doc rootPath root) {applies : List Directive → Prop}
    {p : Path} (hp : FoundIn root p) (h : RuledText (Ext.graphql P dist) w cfg doc schema applies p) :
    RuledFile (Ext.graphql P dist) w cfg doc schema applies p := by
  intro contents d hr hd
  obtain ⟨h1, h2, h3, h4⟩ := h contents d hr hd
  obtain ⟨contents', d', hr', hd', _, _, hsup⟩ := F.files p hp
  obtain rfl : contents' = contents := Except.ok.inj (hr'.symm.trans hr)
  obtain rfl : d' = d := by
    have := hd'.symm.trans hd
    simp only [Except.ok.injEq, List.cons.injEq, and_true] at this
    exact this
  exact ⟨h1, h2, fun frags hs => ⟨(h4 frags hs).1, C130_names_fit P dist hd hs hsup.keyword h3, (h4 frags hs).2⟩⟩

/-- **C130.** C124 for documents that are read as GraphQL: of their names it asks only that no definition is called like
a reserved word or a type of TypeScript and that its types do not clash with those of the schema. -/
theorem C130_right_types (hs : Schema.ofJson doc = .ok schema) (S : SchemaFit cfg.toTsConfig doc)
    (hk : KeepsNamedTypes doc) (ho : Ordinary cwd w cfg rootPath root)
    (F : ProjectFine (Ext.graphql P dist) w cfg doc rootPath root)
    (hm : ∀ p, FoundIn root p → MergingFile (Ext.graphql P dist) w cfg doc p) (applies : List Directive → Prop)
    (hf : ∀ p, FoundIn root p → RuledText (Ext.graphql P dist) w cfg doc schema applies p)
    {s : PoolSt World} {ms : List Msg} {w' : World}
    (R : RunsTo ω ω' fuel (Ext.graphql P dist) cfg schema rootPath root threads w s ms w') (paint : Paint)
    (scalars env : String → JVal → Prop) (he : ScalarEnv cfg.toTsConfig doc scalars env) :
    (printExitInfo paint ms).code = 0 ∧
    ∃ g : List TsStmt,
      ((∃ n, UsedGlobal ω fuel (Ext.graphql P dist) cfg schema w root n) → HoldsModule w' (globalsId w cfg rootPath) g) ∧
      ((¬ ∃ n, UsedGlobal ω fuel (Ext.graphql P dist) cfg schema w root n) → g = []) ∧
      ∀ p, FoundIn root p → ∃ contents d frags m, w.read p = .ok contents ∧ parseQuery P contents = .ok [d] ∧
        InScope (Ext.graphql P dist) w cfg p contents frags ∧ HoldsModule w' (w.resolve (outputPath p)) m ∧
        (∀ P, serverRoot d = some P → ∀ T ∈ objectTypes doc P, ∀ v,
          (∀ n, AnswersTo doc frags applies scalars n T [itemsOf d] v) →
          ∀ n, ModuleAdmits m (linked g env) n (dataName d) v) ∧
        (varsOf d ≠ [] → ∀ v, VariablesOf doc scalars (varsOf d) v →
          ∀ n, ModuleAdmits m (linked g env) n (dataName d ++ "Variables") v) :=
  C124_right_types hs S hk ho F hm applies (fun p hp => ruled_of_text F hp (hf p hp)) R paint scalars env he

end

/-! ### Examples -/

section
variable {ext ext' : Ext} {w w' : World} {cfg : CompileConfig} {p : Path} {c c' : String} {doc : JSchema} {schema : Schema}

theorem sameReading_inScope (h : SameReading ext ext' w w') (e : importsOf c' = importsOf c) {frags : Frags}
    (hs : InScope ext' w' cfg p c' frags) : InScope ext w cfg p c frags := by
  intro n f
  rw [hs n f]
  exact and_congr_right (fun _ => ⟨sameReading_imported (sameReading_symm h) e.symm, sameReading_imported h e⟩)

theorem sameReading_error (h : SameReading ext ext' w w') {q : Path} {e : String} (hq : w.read q = .error e) :
    ∃ e', w'.read q = .error e' := by
  have := h q
  rw [hq] at this
  cases e : w'.read q with
  | ok c => rw [e] at this; exact absurd this id
  | error x => exact ⟨x, rfl⟩

theorem sameReading_broken (h : SameReading ext ext' w w') (hb : Broken w cfg p c) :
    ∀ c', importsOf c' = importsOf c → Broken w' cfg p c' := by
  induction hb with
  | here h1 h2 =>
    intro c' e
    exact .here (by rw [e]; exact h1) h2
  | there h1 h2 _ ih =>
    intro c' e
    obtain ⟨t, k1, k2, _⟩ := sameReading_read h h2
    exact .there ⟨by rw [e]; exact h1.1, h1.2⟩ k1 (ih t k2)

theorem sameReading_importErr (h : SameReading ext ext' w w') {m : Msg} (hb : ImportErr w cfg p c m) :
    ∀ c', importsOf c' = importsOf c → ∃ m', ImportErr w' cfg p c' m' := by
  induction hb with
  | here h1 h2 =>
    intro c' e
    obtain ⟨x, k⟩ := sameReading_error h h2
    exact ⟨_, .here ⟨by rw [e]; exact h1.1, h1.2⟩ k⟩
  | there h1 h2 _ ih =>
    intro c' e
    obtain ⟨t, k1, k2, _⟩ := sameReading_read h h2
    obtain ⟨m', k⟩ := ih t k2
    exact ⟨m', .there ⟨by rw [e]; exact h1.1, h1.2⟩ k1 k⟩

theorem sameReading_acc (h : SameReading ext ext' w w') {x : Path × String} (hx : Acc (ImportEdge w cfg) x) :
    ∀ c', importsOf c' = importsOf x.2 → Acc (ImportEdge w' cfg) (x.1, c') := by
  induction hx with
  | intro x _ ih =>
    intro c' e
    refine Acc.intro _ ?_
    rintro ⟨q, t'⟩ ⟨il, hi, hr⟩
    obtain ⟨t, k1, k2, _⟩ := sameReading_read (sameReading_symm h) hr
    exact ih (q, t) ⟨il, ⟨by rw [← e]; exact hi.1, hi.2⟩, k1⟩ t' k2.symm

theorem sameReading_gqlFile (h : SameReading ext ext' w w') (hf : GqlFile ext w cfg doc p) : GqlFile ext' w' cfg doc p := by
  obtain ⟨c, d, hr, hd, I, hv, hs⟩ := hf
  obtain ⟨c', k1, k2, k3⟩ := sameReading_read h hr
  have h' := sameReading_symm h
  refine ⟨c', d, k1, by rw [k3]; exact hd, ?_, fun frags hsc => hv frags (sameReading_inScope h k2 hsc), hs⟩
  refine ⟨fun hb => I.closed (sameReading_broken h' hb c k2.symm), fun m hm => ?_, ?_, ?_, sameReading_acc h I.finite c' k2⟩
  · obtain ⟨m', k⟩ := sameReading_importErr h' hm c k2.symm
    exact I.readable m' k
  · intro q t hl ht
    obtain ⟨t', a1, _, a3⟩ := sameReading_read h' ht
    obtain ⟨f, hf⟩ := I.fragments q t' (sameReading_loads h' hl c k2.symm) a1
    exact ⟨f, by rw [← a3]; exact hf⟩
  · exact fun f f' a b => I.names f f' (sameReading_imported h' k2.symm a) (sameReading_imported h' k2.symm b)

theorem sameReading_merging (h : SameReading ext ext' w w') (hf : MergingFile ext w cfg doc p) :
    MergingFile ext' w' cfg doc p := by
  intro c' d hr hd
  have h' := sameReading_symm h
  obtain ⟨c, k1, k2, k3⟩ := sameReading_read h' hr
  obtain ⟨a, b⟩ := hf c d k1 (by rw [k3]; exact hd)
  exact ⟨fun frags hs => a frags (sameReading_inScope h k2.symm hs), fun f hi => b f (sameReading_imported h' k2 hi)⟩

theorem sameReading_ruled (h : SameReading ext ext' w w') {applies : List Directive → Prop}
    (hf : RuledFile ext w cfg doc schema applies p)
    (hn : ∀ c d, w.read p = .ok c → ext.parse c = .ok [d] → NameFree cfg.toTsConfig doc d) :
    RuledText ext' w' cfg doc schema applies p := by
  intro c' d hr hd
  have h' := sameReading_symm h
  obtain ⟨c, k1, k2, k3⟩ := sameReading_read h' hr
  obtain ⟨a1, a2, a3⟩ := hf c d k1 (by rw [k3]; exact hd)
  refine ⟨a1, a2, hn c d k1 (by rw [k3]; exact hd), fun frags hs => ?_⟩
  obtain ⟨b1, _, b3⟩ := a3 frags (sameReading_inScope h k2.symm hs)
  exact ⟨b1, b3⟩

theorem sameReading_reads (h : SameReading ext ext' w w') {q : Path} (hr : Spec.Reads w cfg p q) : Spec.Reads w' cfg p q := by
  induction hr with
  | self => exact .self
  | imported _ h1 h2 ih =>
    obtain ⟨t, k1, k2, _⟩ := sameReading_read h h1
    exact .imported ih k1 ⟨by rw [k2]; exact h2.1, h2.2⟩

theorem sameReading_ordinary (h : SameReading ext ext' w w') (hres : w'.resolve = w.resolve) {cwd : List String}
    {rootPath : Path} {root : Entry} (ho : Ordinary cwd w cfg rootPath root) : Ordinary cwd w' cfg rootPath root := by
  have h' := sameReading_symm h
  have ht : ∀ q, Touched w' cfg rootPath root q → Touched w cfg rootPath root q := by
    intro q hq
    cases hq with
    | read hp hr => exact .read hp (sameReading_reads h' hr)
    | output hp => exact .output hp
    | globals => exact .globals
  refine ⟨ho.listing, fun p q hp hr => ho.imports p q hp (sameReading_reads h' hr), ho.globals, ?_⟩
  intro p q hp hq e
  rw [hres] at e
  exact ho.noLinks p q (ht p hp) (ht q hq) e

end

theorem text_projectFine : ProjectFine Demo.textExt (Demo.textWorld Demo.queryText Demo.fragmentText) Demo.cfg
    Demo.respJson ⟨true, ["r"]⟩ Demo.fileTree where
  directories := demo_projectFine.directories
  files := fun p hp => sameReading_gqlFile text_sameReading (demo_projectFine.files p hp)
  outputs := fun _ _ => rfl
  globalsFile := rfl
  inputs := demo_projectFine.inputs
  noNesting := demo_projectFine.noNesting

theorem demo_nameFree {p : Path} (hp : FoundIn Demo.fileTree p) (c : String) (d : Definition)
    (hr : Demo.runWorld.read p = .ok c) (hd : Demo.runExt.parse c = .ok [d]) :
    NameFree Demo.tsCfg Demo.respJson d := by
  rcases demo_found hp with rfl | rfl
  · rw [runWorld_q] at hr
    cases hr
    have hq : Demo.runExt.parse Demo.runText = .ok [Demo.query] := rfl
    rw [hq] at hd
    simp only [Except.ok.injEq, List.cons.injEq, and_true] at hd
    subst hd
    exact ⟨by decide, by decide, fun n hn => demo_outside hn⟩
  · rw [runWorld_f] at hr
    cases hr
    have hq : Demo.runExt.parse "fragment F" = .ok [.fragment Demo.fragF] := rfl
    rw [hq] at hd
    simp only [Except.ok.injEq, List.cons.injEq, and_true] at hd
    subst hd
    exact ⟨by decide, by decide, frag_document.apart⟩

/-- The demo project is compiled from its texts; the types that are generated for the query admit a response and
variables. -/
theorem C130_demo : ∃ s ms w' g m,
    RunsTo (fun _ => .inOrder) .reversed 9 Demo.textExt Demo.cfg Demo.respSchema ⟨true, ["r"]⟩ Demo.fileTree 1
      (Demo.textWorld Demo.queryText Demo.fragmentText) s ms w' ∧
    (printExitInfo .plain ms).code = 0 ∧ HoldsModule w' "/r/q.graphql.d.ts" m ∧
    (∀ n, ModuleAdmits m (linked g (leastEnv Demo.tsCfg Demo.respJson stringScalars)) n "Q" respValue) ∧
    ∀ n, ModuleAdmits m (linked g (leastEnv Demo.tsCfg Demo.respJson stringScalars)) n "QVariables" varsValue := by
  have a1 : (endsWith (textRun Demo.queryText Demo.fragmentText)
    (textEnd Demo.queryText Demo.fragmentText)).isSome = true := by decide +kernel
  obtain ⟨t₁, b1⟩ := Option.isSome_iff_exists.1 a1
  obtain ⟨ms, w', e₁, h1, h2, _, _⟩ := endsWith_some b1
  have R : RunsTo (fun _ => .inOrder) .reversed 9 Demo.textExt Demo.cfg Demo.respSchema ⟨true, ["r"]⟩ Demo.fileTree 1
      (Demo.textWorld Demo.queryText Demo.fragmentText) _ ms w' := ⟨⟨_, rfl⟩, h1, h2, e₁⟩
  have hle := leastEnv_for Demo.tsCfg Demo.respJson stringScalars
  have hsame := text_sameReading
  have hqt := query_text
  have hqr := textWorld_q Demo.queryText Demo.fragmentText
  have hO := sameReading_ordinary hsame rfl C114_demo.1
  have hF := text_projectFine
  revert R hsame hqt hqr hO hF
  generalize textRun Demo.queryText Demo.fragmentText = s
  have oq : (Demo.textWorld Demo.queryText Demo.fragmentText).resolve (outputPath Demo.qPath) = "/r/q.graphql.d.ts" := by
    decide +kernel
  revert oq
  generalize Demo.textWorld Demo.queryText Demo.fragmentText = w
  generalize Demo.queryText = qt
  intro oq R hsame hqt hqr hO hF
  obtain ⟨h0, g, _, _, hfiles⟩ := C130_right_types (P := Demo.parser) (dist := Demo.runExt.dist) resp_loads full_schema
    (keeps_of_noNarrowing (noNarrowingB_sound (by decide +kernel))) hO hF
    (fun p hp => sameReading_merging hsame (demo_merging hp)) _
    (fun p hp => sameReading_ruled hsame (demo_ruled hp) (demo_nameFree hp)) R .plain stringScalars
    (leastEnv Demo.tsCfg Demo.respJson stringScalars) ⟨hle.string, hle.number, hle.boolean, hle.any, hle.custom⟩
  have hq : FoundIn Demo.fileTree Demo.qPath := (mem_filesOf _ _).1 (by decide +kernel)
  obtain ⟨contents, d, frags, m, hr, hp, hsc, hm, m1, m2⟩ := hfiles Demo.qPath hq
  rw [oq] at hm
  rw [hqr] at hr
  cases hr
  rw [hqt] at hp
  simp only [Except.ok.injEq, List.cons.injEq, and_true] at hp
  subst hp
  refine ⟨_, ms, w', g, m, R, h0, hm, m1 "Query" rfl "Query" (by decide +kernel) _ ?_, m2 (by decide) _ varsValue_ok⟩
  obtain ⟨c, k1, k2, _⟩ := sameReading_read (sameReading_symm hsame) hqr
  rw [runWorld_q] at k1
  cases k1
  have hsc := sameReading_inScope hsame k2.symm hsc
  have hin : ∀ x fd, AMap.get? frags x = some fd → x = "F" ∧ fd = Demo.fragF := by
    intro x fd hx
    obtain ⟨h1, h2⟩ := (hsc x fd).1 hx
    have h3 := run_imported_q.1 h2
    subst h3
    exact ⟨h1.symm, rfl⟩
  refine fun n => answers_scope (fun x fd hx => ?_) (fun x fd hx => ?_) n _ _ _ ?_ (resp_answers n)
  · obtain ⟨rfl, rfl⟩ := hin x fd hx
    rfl
  · obtain ⟨rfl, rfl⟩ := hin x fd hx
    have e : spreadsSels Demo.fragF.items = [] := by decide +kernel
    intro y hy
    rw [e] at hy
    cases hy
  · intro s hs
    rw [List.mem_singleton] at hs
    subst hs
    have e : spreadsSels (itemsOf Demo.query) = ["F"] := by decide +kernel
    intro y hy
    rw [e, List.mem_singleton] at hy
    subst hy
    exact ⟨Demo.fragF, (hsc "F" Demo.fragF).2 ⟨rfl, run_imported_q.2 rfl⟩⟩

end Qlc
