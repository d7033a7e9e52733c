import Verif.Lemmas.Compose
import Verif.Lemmas.Hash
import Verif.Props.Exact
import Verif.Props.Correct
/-
Property C119: data found where a document spreads a fragment belongs to the type generated for the fragment.
-/
set_option autoImplicit false

namespace Qlc
open Spec

variable {doc : JSchema} {schema : Schema} {frags : Frags}

/-- A valid selection set spreads fragments in scope only. -/
theorem known_of_valid {P : String} {items : List Selection} (h : Valid schema frags P items) :
    SpreadsKnown frags items :=
  spreads_known _ P _ items (Nat.le_refl _) h

/-- The object that a server answers where the fragment is spread contains an answer to the fragment, with the
fragments that the fragment's own file has in scope. -/
theorem fragment_answers (hv : ValidDoc doc) {applies : List Directive → Prop} {scalars : String → JVal → Prop}
    {frags' : Frags} (hsub : ∀ x fd, AMap.get? frags' x = some fd → AMap.get? frags x = some fd)
    (hfr' : FragsValid schema frags') {F : FragmentDef} (hF : Valid schema frags' F.typeCond F.items)
    {P : String} {items : List Selection} {path : List String}
    (hat : SpreadAt doc frags applies F P items path) {T : String} (hT : T ∈ objectTypes doc P)
    (hm : ∀ n, MergesWell doc frags applies n T [items]) {u y : JVal}
    (h : ∀ n, AnswersTo doc frags applies scalars n T [items] u) (hy : ObjectAt y path u) :
    ∃ v, PartOf v y ∧ ∃ T' ∈ objectTypes doc F.typeCond,
      ∀ n, AnswersTo doc frags' applies scalars n T' [F.items] v := by
  obtain ⟨L, _, _, hL, _⟩ := answers_fill h
  obtain ⟨L₁, hL₁, hsub1⟩ := collectMany_part hL (s := items) (by simp)
  obtain ⟨T', hT', v, hpart, hans⟩ := place_answers hv hat T [items] L L₁ u y hT hL hL₁ hsub1 hm h hy
  refine ⟨v, hpart, T', hT', fun n => ?_⟩
  refine answers_scope hsub (fun x fd hx => known_of_valid (hfr' x fd hx).2) n T' [F.items] v ?_ (hans n)
  intro s hs
  rw [List.mem_singleton] at hs
  subst hs
  exact known_of_valid hF

section
variable {ω : Path → Hash} {ω' : Hash} {fuel : Nat} {ext : Ext} {cfg : CompileConfig}
  {rootPath : Path} {root : Entry} {threads : Nat} {w w' : World} {s : PoolSt World} {ms : List Msg}

/-- **C119.** After a complete run with exit status 0: let a document `p` of the tree, fit as in C89, import a file
`q` with a fragment `F`, itself fit, and spread `F` at the end of a path of response keys.  Whatever a server
answers to the document, each object found along that path has a part (some properties left out) that belongs to
the type which the output file of `q` exports for the fragment.  If the document is exactly fit (C92), the same
is true of every value that belongs to the document's generated type. -/
theorem C119_fragment_data (hr : NoOutputRead w cfg root) (hd : OutputsDistinct w root)
    (hg : GlobalsApart w cfg rootPath root)
    (R : RunsTo ω ω' fuel ext cfg schema rootPath root threads w s ms w') (paint : Paint)
    (h0 : (printExitInfo paint ms).code = 0)
    (hs : Schema.ofJson doc = .ok schema) (S : SchemaFit cfg.toTsConfig doc)
    (scalars env : String → JVal → Prop) (he : ScalarEnv cfg.toTsConfig doc scalars env) :
    ∃ g : List TsStmt,
      ((∃ n, UsedGlobal ω fuel ext cfg schema w root n) → HoldsModule w' (globalsId w cfg rootPath) g) ∧
      ((¬ ∃ n, UsedGlobal ω fuel ext cfg schema w root n) → g = []) ∧
      ∀ p, FoundIn root p → ∀ q, FoundIn root q →
        ∃ contents d st op ws c contents' d' st' op' ws' c',
        Generates (ω p) fuel ext cfg schema w p contents d st op ws c ∧
        Generates (ω q) fuel ext cfg schema w q contents' d' st' op' ws' c' ∧
        (∀ F, d' = .fragment F → Loads w cfg p contents q → ImportsInTree w cfg root p contents →
          NamesDiffer ext w cfg p → ∀ applies P path,
          DocumentFit cfg.toTsConfig doc schema
            (parseForeignFragments (ω p) ext p st.imports st.messages).1 d applies P →
          DocumentFit cfg.toTsConfig doc schema
            (parseForeignFragments (ω q) ext q st'.imports st'.messages).1 d' applies F.typeCond →
          (∀ T ∈ objectTypes doc P, ∀ n, MergesWell doc
            (parseForeignFragments (ω p) ext p st.imports st.messages).1 applies n T [itemsOf d]) →
          SpreadAt doc (parseForeignFragments (ω p) ext p st.imports st.messages).1 applies F P (itemsOf d) path →
          ∃ m m', HoldsModule w' (w.resolve (outputPath p)) m ∧ HoldsModule w' (w.resolve (outputPath q)) m' ∧
            (∀ T ∈ objectTypes doc P, ∀ u,
              (∀ n, AnswersTo doc (parseForeignFragments (ω p) ext p st.imports st.messages).1 applies
                scalars n T [itemsOf d] u) →
              ∀ y, ObjectAt y path u →
                ∃ v, PartOf v y ∧ ∀ n, ModuleAdmits m' (linked g env) n F.name v) ∧
            (ExactFit cfg.toTsConfig doc schema
                (parseForeignFragments (ω p) ext p st.imports st.messages).1 d P scalars env →
              ∀ u, (∀ n, ModuleAdmits m (linked g env) n (dataName d) u) →
              ∀ y, ObjectAt y path u →
                ∃ v, PartOf v y ∧ ∀ n, ModuleAdmits m' (linked g env) n F.name v)) := by
  have hcon := loaded_consistent S.valid hs
  obtain ⟨ω₂, fuel₂, text, g, hgc, hgp, g1, g2, hfiles⟩ := run_texts hr hd hg R paint h0 hs S
  refine ⟨g, g1, g2, ?_⟩
  intro p hp q hq
  obtain ⟨contents, d, st, op, ws, c, G, hdisk, hsub⟩ := hfiles p hp
  obtain ⟨contents', d', st', op', ws', c', G', hdisk', hsub'⟩ := hfiles q hq
  refine ⟨contents, d, st, op, ws, c, contents', d', st', op', ws', c', G, G', ?_⟩
  rintro F rfl hload hin huniq applies P path D D' hm hat
  have hload' : ∀ r, Loads w cfg q contents' r → Loads w cfg p contents r :=
    fun r h => loads_trans hload G'.readable h
  have himp : ∀ f, ImportedFragment ext w cfg q contents' f → ImportedFragment ext w cfg p contents f := by
    rintro f ⟨r, cr, h1, h2, h3⟩
    exact ⟨r, cr, hload' r h1, h2, h3⟩
  have sc := inScope_foreign ext cfg w p (ω p) G.scanned
    (fun f f' => huniq contents d f f' G.readable G.parses)
  have sc' := inScope_foreign ext cfg w q (ω q) G'.scanned
    (fun f f' h h' => huniq contents d f f' G.readable G.parses (himp f h) (himp f' h'))
  have hfs : ∀ x fd, AMap.get? (parseForeignFragments (ω q) ext q st'.imports st'.messages).1 x = some fd →
      AMap.get? (parseForeignFragments (ω p) ext p st.imports st.messages).1 x = some fd := by
    intro x fd hx
    obtain ⟨h1, h2⟩ := (sc' x fd).1 hx
    exact (sc x fd).2 ⟨h1, himp fd h2⟩
  have hfr := C90_imported_fragments_valid hr hd hg R paint h0 hcon p contents d st op ws c G hin
  have hfr' := C90_imported_fragments_valid hr hd hg R paint h0 hcon q contents' _ st' op' ws' c' G'
    (fun r h => hin r (hload' r h))
  obtain ⟨P', hP', _, hval, _⟩ := (C07_compiles_iff_valid (ω q) fuel _ hcon _ _ _ G'.valid).1 ⟨_, rfl⟩
  injection hP' with hP'
  subst hP'
  have hlook : ∀ {p : Path} {contents : String} {d : Definition} {st : ImportSt} {op : Operation}
      {ws : List Warning} {c : Compile} {P : String}, Generates (ω p) fuel ext cfg schema w p contents d st op ws c →
      FragsValid schema (parseForeignFragments (ω p) ext p st.imports st.messages).1 →
      (∀ n ∈ c.globalTypesUsed, n ∈ s.aggregate.2) →
      DocumentFit cfg.toTsConfig doc schema
        (parseForeignFragments (ω p) ext p st.imports st.messages).1 d applies P →
      ∃ m, parseModule c.contents = some m ∧ ∀ T ∈ objectTypes doc P, ∀ v,
        (∀ n, AnswersTo doc (parseForeignFragments (ω p) ext p st.imports st.messages).1 applies scalars n T
          [itemsOf d] v) → ∀ n, ModuleAdmits m (linked g env) n (dataName d) v := by
    intro p contents d st op ws c P G hfr hsub D
    have hP := root_of_server D.notSubscription D.root G.valid
    have hsame := (C23_same_bodies_iff (ω p) fuel cfg.showDeprecationWarnings hcon hfr d op ws P hP G.valid
      D.oneType).2 D.lookAlikes
    have hname := name_of_compiled hcon G.valid
    have hmain : IsBinding op.name := by rw [hname]; exact D.name
    have hvs := fit_variables hs S D G.valid
    obtain ⟨m, g', hp1, hp2, hresp⟩ := C81_responses_inhabit_both_texts (ω p) ω₂ fuel fuel₂
      cfg.showDeprecationWarnings cfg.toTsConfig S.valid S.validInputs hs S.lists S.writable S.globalsWritable
      S.scalarsApart hfr d op ws P D.notSubscription D.root G.valid D.oneType hsame applies
      D.unconditional D.fragsApply hmain D.keys D.fragmentKeys hvs
      (fun n hn => by rw [hname]; exact D.apart n (.inl hn)) scalars env he c G.generated s.aggregate.2 hsub text hgc
    rw [hgp] at hp2
    cases hp2
    exact ⟨m, hp1, hresp⟩
  obtain ⟨m, hmp, _⟩ := hlook G hfr hsub D
  obtain ⟨m', hmp', hresp'⟩ := hlook G' hfr' hsub' D'
  have key : ∀ T ∈ objectTypes doc P, ∀ u,
      (∀ n, AnswersTo doc (parseForeignFragments (ω p) ext p st.imports st.messages).1 applies
        scalars n T [itemsOf d] u) →
      ∀ y, ObjectAt y path u → ∃ v, PartOf v y ∧ ∀ n, ModuleAdmits m' (linked g env) n F.name v := by
    intro T hT u hu y hy
    obtain ⟨v, hpart, T', hT', hans⟩ := fragment_answers S.valid hfs hfr' hval hat hT (hm T hT) hu hy
    exact ⟨v, hpart, hresp' T' hT' v hans⟩
  refine ⟨m, m', ⟨_, hdisk, hmp⟩, ⟨_, hdisk', hmp'⟩, key, ?_⟩
  intro E u hu y hy
  obtain ⟨m₂, g', hm₂, hg', hiff⟩ := C92_admits_exactly (ω p) ω₂ fuel fuel₂ cfg.showDeprecationWarnings
    cfg.toTsConfig hs S hfr d op ws P applies G.valid D scalars env he E c G.generated s.aggregate.2 hsub text hgc
  rw [hgp] at hg'
  cases hg'
  rw [hmp] at hm₂
  cases hm₂
  obtain ⟨T, hT, hu⟩ := (hiff u).1 hu
  exact key T hT u hu y hy

end

/-! ### An example -/

/-- The demo query spreads the fragment `F` inside its field `node`. -/
theorem demo_spread : SpreadAt Demo.respJson Demo.ctx.fragments (fun d => d.isEmpty = true) Demo.fragF "Query"
    (itemsOf Demo.query) ["node"] := by
  have hf : fieldType Demo.respJson "Query" "node" = some ("INTERFACE", .named "Node") := by decide +kernel
  exact .field (pos := ⟨3, 3⟩) (al := none) (name := "node") (args := []) (dirs := []) (List.mem_cons_self ..) rfl
    hf (by decide) (.here (pos := ⟨6, 8⟩) (name := "F") (dirs := []) (by simp) rfl rfl
      (fun T hT => hT))

theorem demo_merges (n : Nat) (T : String) : MergesWell Demo.respJson Demo.ctx.fragments (fun d => d.isEmpty = true) n
    T [itemsOf Demo.query] := by
  refine mergesWell_of_keys (A := keyNames (itemsOf Demo.query) ++ keyNames Demo.fragF.items) (by decide) ?_ n T _ ?_
  · intro x fd hx a ha
    obtain rfl := demo_frag hx
    exact List.mem_append_right _ ha
  · intro s hs a ha
    rw [List.mem_singleton] at hs
    subst hs
    exact List.mem_append_left _ ha

/-- The object under `node` in the demo answer. -/
def nodeValue : JVal := .obj [("__typename", .str "User"), ("id", .str "7"), ("name", .null),
  ("role", .str "ADMIN"), ("old", .str "2020-01-01")]

theorem demo_node : ObjectAt nodeValue ["node"] respValue :=
  .under (List.mem_cons_self ..) (.self rfl) .here

/-- The checks for the demo fragment. -/
def fragChecks : Bool :=
  match Operation.compile .inOrder 9 ⟨Demo.respSchema, true, []⟩ (.fragment Demo.fragF) with
  | some (.ok op, _) => distinctPossB op.collection && everywhere sameHere 9 op.collection
  | _ => false

theorem frag_document : DocumentFit Demo.tsCfg Demo.respJson Demo.respSchema [] (.fragment Demo.fragF)
    (fun d => d.isEmpty = true) "Node" := by
  have hch : fragChecks = true := by decide +kernel
  have hfr : FragsValid Demo.respSchema [] := by intro name fd h; simp [AMap.get?] at h
  have hcon := loaded_consistent resp_valid resp_loads
  unfold fragChecks at hch
  split at hch
  case h_2 => simp at hch
  rename_i op ws h
  rw [Bool.and_eq_true] at hch
  have hone := (C21_listed_once_iff .inOrder 9 true hcon hfr _ op ws "Node" rfl h).1 ((distinctPoss_iff _).1 hch.1)
  exact
    { notSubscription := rfl
      root := rfl
      oneType := hone
      lookAlikes := (C23_same_bodies_iff .inOrder 9 true hcon hfr _ op ws "Node" rfl h hone).1
        (sameBodies_of_check hch.2)
      unconditional := by unfold Unconditional; decide
      fragsApply := by intro name fd h; simp [AMap.get?] at h
      name := by decide
      keys := by decide
      fragmentKeys := by intro name fd h; simp [AMap.get?] at h
      variablesValid := by intro x hx; simp [varsOf] at hx
      variableNames := by intro x hx; simp [varsOf] at hx
      apart := by
        intro n hn
        rcases hn with hn | hn
        · have := outsideB_sound (q := fun n => !generatedB "F" n && decide (n ≠ "FVariables")) (cfg := Demo.tsCfg)
              (doc := Demo.respJson) (by decide +kernel) n hn
          rw [Bool.and_eq_true, decide_eq_true_eq, Bool.not_eq_true'] at this
          exact ⟨generatedB_sound this.1, this.2⟩
        · have : (Demo.respJson.types.map JType.name).all (fun n =>
              if kindNamed Demo.respJson n = some "INPUT_OBJECT" then
                decide (n ≠ "F") && !generatedB "F_" n && decide (n ≠ "FVariables") else true) = true := by
            decide +kernel
          have := (List.all_eq_true.1 this) n (kindNamed_mem hn)
          rw [if_pos hn, Bool.and_eq_true, Bool.and_eq_true, decide_eq_true_eq, decide_eq_true_eq,
            Bool.not_eq_true'] at this
          obtain ⟨⟨t1, t2⟩, t3⟩ := this
          refine ⟨?_, t3⟩
          rintro (rfl | ⟨x, rfl⟩)
          · exact t1 rfl
          · unfold generatedB at t2
            have : ("F_" : String).toList <+: ("F" ++ "_" ++ x).toList := by
              rw [String.toList_append]
              exact List.prefix_append _ _
            exact Bool.noConfusion ((List.isPrefixOf_iff_prefix.2 this).symm.trans t2) }

/-- After the demo run the object under `node` has a part that belongs to the type of `f.graphql`'s output, and so
has every object under `node` of a value of the query's type. -/
theorem C119_demo : ∃ s ms w' m m' g,
    NoOutputRead Demo.runWorld Demo.cfg Demo.fileTree ∧
    OutputsDistinct Demo.runWorld Demo.fileTree ∧
    GlobalsApart Demo.runWorld Demo.cfg ⟨true, ["r"]⟩ Demo.fileTree ∧
    RunsTo (fun _ => .inOrder) .reversed 9 Demo.runExt Demo.cfg Demo.respSchema ⟨true, ["r"]⟩ Demo.fileTree 1
      Demo.runWorld s ms w' ∧
    (printExitInfo (fun _ s => s) ms).code = 0 ∧
    HoldsModule w' "/r/q.graphql.d.ts" m ∧ HoldsModule w' "/r/f.graphql.d.ts" m' ∧
    (∃ v, PartOf v nodeValue ∧ ∀ n, ModuleAdmits m' (linked g tightEnv) n "F" v) ∧
    ∀ u, (∀ n, ModuleAdmits m (linked g tightEnv) n "Q" u) → ∀ y, ObjectAt y ["node"] u →
      ∃ v, PartOf v y ∧ ∀ n, ModuleAdmits m' (linked g tightEnv) n "F" v := by
  have h : fullOk = true := by decide +kernel
  unfold fullOk at h
  simp only [Bool.and_eq_true] at h
  obtain ⟨⟨⟨h1, h2⟩, h3⟩, h4⟩ := h
  split at h4
  case h_2 => simp at h4
  rename_i ms w' e
  simp only [beq_iff_eq] at h4
  have hno : NoOutputRead Demo.runWorld Demo.cfg Demo.fileTree := by
    intro p q hp hq ho
    rcases full_reads (demo_found hp) hq with rfl | rfl <;>
    · rcases demo_output (id := _) ho with h | h
      · revert h; decide +kernel
      · revert h; decide +kernel
  have hga : GlobalsApart Demo.runWorld Demo.cfg ⟨true, ["r"]⟩ Demo.fileTree := by
    refine ⟨demo_globalsApart.1, fun p q hp hq => ?_⟩
    rcases full_reads (demo_found hp) hq with rfl | rfl <;> decide +kernel
  have R : RunsTo (fun _ => .inOrder) .reversed 9 Demo.runExt Demo.cfg Demo.respSchema ⟨true, ["r"]⟩
      Demo.fileTree 1 Demo.runWorld fullRun ms w' := ⟨⟨_, rfl⟩, h1, List.isEmpty_iff.1 h2, e⟩
  obtain ⟨g, _, _, hfiles⟩ := C119_fragment_data hno demo_outputsDistinct hga R (fun _ s => s) h4 resp_loads
    full_schema stringScalars tightEnv tightEnv_for
  have hq : FoundIn Demo.fileTree Demo.qPath := (mem_filesOf _ _).1 (by decide +kernel)
  have hf : FoundIn Demo.fileTree Demo.fPath := (mem_filesOf _ _).1 (by decide +kernel)
  obtain ⟨contents, d, st, op, ws, c, contents', d', st', op', ws', c', G, G', hdoc⟩ :=
    hfiles Demo.qPath hq Demo.fPath hf
  have hscope := full_scope G.readable G.scanned
  have hd : d = Demo.query := full_parses G.readable G.parses
  subst hd
  have rf : Demo.runWorld.read Demo.fPath = .ok "fragment F" := rfl
  have rq : Demo.runWorld.read Demo.qPath = .ok Demo.runText := rfl
  have ec : Demo.runText = contents := Except.ok.inj (rq.symm.trans G.readable)
  have ec' : "fragment F" = contents' := Except.ok.inj (rf.symm.trans G'.readable)
  subst ec ec'
  have hp' := G'.parses
  have pf : Demo.runExt.parse "fragment F" = .ok [.fragment Demo.fragF] := rfl
  rw [pf] at hp'
  have ed : Definition.fragment Demo.fragF = d' := (List.cons.inj (Except.ok.inj hp')).1
  subst ed
  have hscope' : (parseForeignFragments .inOrder Demo.runExt Demo.fPath st'.imports st'.messages).1 = [] := by
    have e : (match addImported Demo.runWorld Demo.cfg 9 Demo.fPath "fragment F" ⟨[], []⟩ with
        | some (.done st) => st.imports.length
        | _ => 1) = 0 := by decide +kernel
    rw [G'.scanned] at e
    have e : st'.imports.length = 0 := e
    rw [List.length_eq_zero_iff.1 e]
    rfl
  have hload : Loads Demo.runWorld Demo.cfg Demo.qPath Demo.runText Demo.fPath := by
    have hall : ∀ il ∈ importsOf Demo.runText,
        getFilePathOfFragment Demo.cfg il.after Demo.qPath.pop = some Demo.fPath := by decide +kernel
    have hlen : (importsOf Demo.runText).length = 1 := by decide +kernel
    obtain ⟨il, hil⟩ := List.length_eq_one_iff.1 hlen
    exact .direct (il := il) ⟨by rw [hil]; simp, hall il (by rw [hil]; simp)⟩ rf
  have hv := G.valid
  rw [hscope] at hv hdoc
  rw [hscope'] at hdoc
  obtain ⟨m, m', hm, hm', k1, k2⟩ := hdoc Demo.fragF rfl hload (full_inTree rq) (demo_names hq) _ "Query" ["node"]
    (full_document hv) frag_document (fun T _ n => demo_merges n T) demo_spread
  exact ⟨_, ms, w', m, m', g, hno, demo_outputsDistinct, hga, R, h4, hm, hm',
    k1 "Query" (by decide +kernel) _ resp_answers _ demo_node, k2 (demo_exact hv)⟩

/-- The part is a proper one: the query's object itself is not an answer to the fragment. -/
example : answersB Demo.respJson [] (fun d => d.isEmpty) 9 "User" [Demo.fragF.items] nodeValue = false ∧
    answersB Demo.respJson [] (fun d => d.isEmpty) 9 "User" [Demo.fragF.items] (.obj [("name", .null)]) = true := by
  decide +kernel

end Qlc
