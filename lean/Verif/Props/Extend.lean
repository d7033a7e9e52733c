import Verif.Lemmas.Extend
import Verif.Props.Compose
/-
Property C120: a document that asks for more has a type whose values contain values of the old type.
-/
set_option autoImplicit false

namespace Qlc
open Spec

variable {doc : JSchema} {schema : Schema} {frags frags' : Frags}

/-- C81 for a fit document. -/
theorem fit_admits (ω ω' : Hash) (fuel fuel' : Nat) (showDep : Bool) (cfg : TsConfig)
    (hs : Schema.ofJson doc = .ok schema) (S : SchemaFit cfg doc) (hfr : FragsValid schema frags)
    {d : Definition} {op : Operation} {ws : List Warning} {P : String} {applies : List Directive → Prop}
    (h : Operation.compile ω fuel ⟨schema, showDep, frags⟩ d = some (.ok op, ws))
    (D : DocumentFit cfg doc schema frags d applies P)
    {scalars env : String → JVal → Prop} (he : ScalarEnv cfg doc scalars env)
    {c : Compile} (hc : compileIr ω op cfg schema = .ok c)
    {used : List String} (hused : ∀ n ∈ c.globalTypesUsed, n ∈ used)
    {text : String} (hg : compileGlobals ω' fuel' cfg schema used = some (.ok text)) :
    ∃ m g, parseModule c.contents = some m ∧ parseModule text = some g ∧
      ∀ T ∈ objectTypes doc P, ∀ v, (∀ n, AnswersTo doc frags applies scalars n T [itemsOf d] v) →
        ∀ n, ModuleAdmits m (linked g env) n (dataName d) v := by
  have hcon := loaded_consistent S.valid hs
  have hP := root_of_server D.notSubscription D.root h
  have hsame := (C23_same_bodies_iff ω fuel showDep hcon hfr d op ws P hP h D.oneType).2 D.lookAlikes
  have hname := name_of_compiled hcon h
  exact C81_responses_inhabit_both_texts ω ω' fuel fuel' showDep cfg S.valid S.validInputs hs S.lists S.writable
    S.globalsWritable S.scalarsApart hfr d op ws P D.notSubscription D.root h D.oneType hsame applies
    D.unconditional D.fragsApply (by rw [hname]; exact D.name) D.keys D.fragmentKeys (fit_variables hs S D h)
    (fun n hn => by rw [hname]; exact D.apart n (.inl hn)) scalars env he c hc used hused text hg

/-- **C120.** Let a second version `d'` of a document `d`, with second versions `frags'` of the fragments in scope,
ask for at least as much as the first, in any order and with any arguments.  Then every response to the second
version has a part (some properties left out) that belongs to the type generated for the first; if the second
version is exactly fit (C92), so has every value of the type generated for it.  The two texts may belong to
different runs, with different globals files. -/
theorem C120_asking_for_more (ω ω₁ ω₂ ω₃ : Hash) (fuel fuel₁ fuel₂ fuel₃ : Nat) (showDep : Bool) (cfg : TsConfig)
    (hs : Schema.ofJson doc = .ok schema) (S : SchemaFit cfg doc)
    (scalars env : String → JVal → Prop) (he : ScalarEnv cfg doc scalars env)
    (applies : List Directive → Prop) (P : String)
    -- the first version
    (hfr : FragsValid schema frags) (d : Definition) (op : Operation) (ws : List Warning)
    (h : Operation.compile ω fuel ⟨schema, showDep, frags⟩ d = some (.ok op, ws))
    (D : DocumentFit cfg doc schema frags d applies P)
    (c : Compile) (hc : compileIr ω op cfg schema = .ok c)
    (used : List String) (hused : ∀ n ∈ c.globalTypesUsed, n ∈ used)
    (text : String) (hg : compileGlobals ω₁ fuel₁ cfg schema used = some (.ok text))
    -- the second version
    (hfr' : FragsValid schema frags') (d' : Definition) (op' : Operation) (ws' : List Warning)
    (h' : Operation.compile ω₂ fuel₂ ⟨schema, showDep, frags'⟩ d' = some (.ok op', ws'))
    (D' : DocumentFit cfg doc schema frags' d' applies P)
    (hm : ∀ T ∈ objectTypes doc P, ∀ n, MergesWell doc frags' applies n T [itemsOf d'])
    (c' : Compile) (hc' : compileIr ω₂ op' cfg schema = .ok c')
    (used' : List String) (hused' : ∀ n ∈ c'.globalTypesUsed, n ∈ used')
    (text' : String) (hg' : compileGlobals ω₃ fuel₃ cfg schema used' = some (.ok text'))
    -- asks for more
    (hF : MoreFrags frags frags') (hmore : MoreSels (itemsOf d) (itemsOf d')) :
    ∃ m g m' g', parseModule c.contents = some m ∧ parseModule text = some g ∧
      parseModule c'.contents = some m' ∧ parseModule text' = some g' ∧
      (∀ T ∈ objectTypes doc P, ∀ u, (∀ n, AnswersTo doc frags' applies scalars n T [itemsOf d'] u) →
        ∃ v, PartOf v u ∧ ∀ n, ModuleAdmits m (linked g env) n (dataName d) v) ∧
      (ExactFit cfg doc schema frags' d' P scalars env →
        ∀ u, (∀ n, ModuleAdmits m' (linked g' env) n (dataName d') u) →
          ∃ v, PartOf v u ∧ ∀ n, ModuleAdmits m (linked g env) n (dataName d) v) := by
  have hcon := loaded_consistent S.valid hs
  obtain ⟨m, g, hm1, hg1, hresp⟩ := fit_admits ω ω₁ fuel fuel₁ showDep cfg hs S hfr h D he hc hused hg
  obtain ⟨m', g', hm2, hg2, _⟩ := fit_admits ω₂ ω₃ fuel₂ fuel₃ showDep cfg hs S hfr' h' D' he hc' hused' hg'
  obtain ⟨P₁, hP₁, _, hval, _⟩ := (C07_compiles_iff_valid ω fuel _ hcon _ _ _ h).1 ⟨_, rfl⟩
  have key : ∀ T ∈ objectTypes doc P, ∀ u,
      (∀ n, AnswersTo doc frags' applies scalars n T [itemsOf d'] u) →
      ∃ v, PartOf v u ∧ ∀ n, ModuleAdmits m (linked g env) n (dataName d) v := by
    intro T hT u hu
    obtain ⟨v, hpart, hans⟩ := more_document hF (fun x fd hx => known_of_valid (hfr x fd hx).2)
      (known_of_valid hval) hmore (hm T hT) hu
    exact ⟨v, hpart, hresp T hT v hans⟩
  refine ⟨m, g, m', g', hm1, hg1, hm2, hg2, key, ?_⟩
  intro E u hu
  obtain ⟨m₂, g₂, e1, e2, hiff⟩ := C92_admits_exactly ω₂ ω₃ fuel₂ fuel₃ showDep cfg hs S hfr' d' op' ws' P applies
    h' D' scalars env he E c' hc' used' hused' text' hg'
  rw [hm2] at e1
  rw [hg2] at e2
  cases e1
  cases e2
  obtain ⟨T, hT, hu⟩ := (hiff u).1 hu
  exact key T hT u hu

/-! ### An example -/

/-- `query Q { node { ...F id } }`, of which the demo query is a second version. -/
def Demo.lessQuery : Definition := .operation .query ⟨1, 1⟩ (some "Q") [] []
  [.field ⟨1, 9⟩ none "node" [] [] [.spread ⟨1, 16⟩ "F" [], Demo.leaf 1 21 "id"]]

theorem less_more : MoreSels (itemsOf Demo.lessQuery) (itemsOf Demo.query) := by
  simp only [itemsOf, Demo.lessQuery, Demo.query, Demo.items, MoreSels, MoreSel, Demo.leaf]
  exact ⟨⟨_, List.mem_cons_self .., _, _, _, rfl,
    ⟨_, List.mem_cons_of_mem _ (List.mem_cons_of_mem _ (List.mem_cons_self ..)), _, rfl⟩,
    ⟨_, List.mem_cons_of_mem _ (List.mem_cons_self ..), _, _, _, rfl, trivial⟩, trivial⟩, trivial⟩

theorem less_frags : MoreFrags Demo.ctx.fragments Demo.ctx.fragments := by
  intro name fd hf
  obtain rfl := demo_frag hf
  refine ⟨_, hf, rfl, ?_⟩
  simp only [Demo.fragF, MoreSels, MoreSel, Demo.leaf]
  exact ⟨⟨_, List.mem_cons_self .., _, _, _, rfl, trivial⟩, trivial⟩

theorem less_checks : respChecks Demo.tsCfg Demo.respSchema Demo.ctx.fragments Demo.lessQuery = true := by
  decide +kernel

theorem less_document : DocumentFit Demo.tsCfg Demo.respJson Demo.respSchema Demo.ctx.fragments Demo.lessQuery
    (fun d => d.isEmpty = true) "Query" := by
  obtain ⟨op, ws, c, h, hc, hd, hsame, _⟩ := respChecks_sound less_checks
  have hcon := loaded_consistent resp_valid resp_loads
  have hone := (C21_listed_once_iff .inOrder 9 true hcon resp_frags_valid Demo.lessQuery op ws "Query" rfl h).1 hd
  exact
    { notSubscription := rfl
      root := rfl
      oneType := hone
      lookAlikes := (C23_same_bodies_iff .inOrder 9 true hcon resp_frags_valid Demo.lessQuery op ws "Query" rfl h
        hone).1 hsame
      unconditional := by unfold Unconditional; decide
      fragsApply := by intro name fd hg; obtain rfl := demo_frag hg; unfold Unconditional; decide
      name := by decide
      keys := by decide
      fragmentKeys := by intro name fd hg; obtain rfl := demo_frag hg; decide
      variablesValid := by intro x hx; simp [varsOf, Demo.lessQuery] at hx
      variableNames := by intro x hx; simp [varsOf, Demo.lessQuery] at hx
      apart := fun n hn => demo_outside hn }

/-- The type of the shorter query has part of the demo answer, and part of every value of the demo query's type. -/
theorem C120_demo : ∃ op ws c op' ws' c' text m m' g,
    Operation.compile .inOrder 9 ⟨Demo.respSchema, true, Demo.ctx.fragments⟩ Demo.lessQuery = some (.ok op, ws) ∧
    compileIr .inOrder op Demo.tsCfg Demo.respSchema = .ok c ∧ parseModule c.contents = some m ∧
    Operation.compile .inOrder 9 ⟨Demo.respSchema, true, Demo.ctx.fragments⟩ Demo.query = some (.ok op', ws') ∧
    compileIr .inOrder op' Demo.tsCfg Demo.respSchema = .ok c' ∧ parseModule c'.contents = some m' ∧
    compileGlobals .reversed 9 Demo.tsCfg Demo.respSchema ["Role", "Filter"] = some (.ok text) ∧
    parseModule text = some g ∧
    (∃ v, PartOf v respValue ∧ ∀ n, ModuleAdmits m (linked g tightEnv) n "Q" v) ∧
    ∀ u, (∀ n, ModuleAdmits m' (linked g tightEnv) n "Q" u) →
      ∃ v, PartOf v u ∧ ∀ n, ModuleAdmits m (linked g tightEnv) n "Q" v := by
  obtain ⟨op, ws, c, h, hc, _⟩ := respChecks_sound less_checks
  obtain ⟨op', ws', c', h', hc', _⟩ := respChecks_sound resp_checks
  obtain ⟨text, hg⟩ := demo_globals
  have hch := module_checks
  unfold moduleChecks at hch
  rw [h'] at hch
  simp only [hc', Bool.and_eq_true, decide_eq_true_eq] at hch
  have hused' : ∀ n ∈ c'.globalTypesUsed, n ∈ ["Role", "Filter"] := by rw [hch.2]; exact fun _ h => h
  have hused : ∀ n ∈ c.globalTypesUsed, n ∈ ["Role", "Filter"] := by
    have e : (match Operation.compile .inOrder 9 ⟨Demo.respSchema, true, Demo.ctx.fragments⟩ Demo.lessQuery with
        | some (.ok op, _) => match compileIr .inOrder op Demo.tsCfg Demo.respSchema with
          | .ok c => c.globalTypesUsed.length
          | _ => 1
        | _ => 1) = 0 := by decide +kernel
    rw [h] at e
    simp only [hc] at e
    rw [List.length_eq_zero_iff.1 e]
    simp
  obtain ⟨m, g, m', g', k1, k2, k3, k4, k5, k6⟩ := C120_asking_for_more .inOrder .reversed .inOrder .reversed 9 9 9 9
    true Demo.tsCfg resp_loads full_schema stringScalars tightEnv tightEnv_for (fun d => d.isEmpty = true) "Query"
    resp_frags_valid Demo.lessQuery op ws h less_document c hc _ hused text hg
    resp_frags_valid Demo.query op' ws' h' (full_document h') (fun T _ n => demo_merges n T) c' hc' _ hused' text hg
    less_frags less_more
  rw [k2] at k4
  cases k4
  exact ⟨op, ws, c, op', ws', c', text, m, m', g, h, hc, k1, h', hc', k3, hg, k2,
    k5 "Query" (by decide +kernel) _ resp_answers, k6 (demo_exact h')⟩

end Qlc
