import Verif.Props.Reproducible
import Verif.Props.Alike
import Verif.Spec.Guideline
/-
Property C124: a rule of thumb under which generated types are right.
-/
set_option autoImplicit false

namespace Qlc
open Spec

section
variable {doc : JSchema} {schema : Schema} {frags : Frags}

/-- The field is composite. -/
def Spec.Contribution.isNested (c : Contribution) : Bool := c.field.type.definition.isComplex

theorem field_nested_iff (hv : ValidDoc doc) (hs : Schema.ofJson doc = .ok schema) {P name : String} {f : SField}
    (hf : fieldOf schema P name = some f) :
    (name = "__typename" ∧ f.type.definition.isComplex = false) ∨
    ∃ k t, fieldType doc P name = some (k, t) ∧ baseName t = f.type.name ∧
      (f.type.definition.isComplex = true ↔ CompositeKind k) := by
  rcases loaded_field hs hv.reserved hf with ⟨h, e⟩ | ⟨_, j, hl, hj⟩
  · left
    exact ⟨h, by rw [e]; rfl⟩
  · right
    obtain ⟨k, t, h1, _, _, h3, _, h2, _⟩ := loaded_declared hv hl hj
    refine ⟨k, t, h1, h2.symm, ?_⟩
    rw [(loaded_consistent hv hs P name f hf).2, loaded_composite hs, h2]
    constructor
    · rintro ⟨k', hk, hc⟩
      rw [h3] at hk
      cases hk
      exact hc
    · exact fun h => ⟨k, h3, h⟩

theorem leaves_collected (hv : ValidDoc doc) (hs : Schema.ofJson doc = .ok schema) {P : String}
    {items : List Selection} (h : LeavesOnly doc frags P items) : ∀ {T : String} {L : List Contribution},
    Coll schema frags T P items L → ∀ c ∈ L, c.isNested = false := by
  induction h with
  | nil => intro T L hc; cases hc; simp
  | typename _ ih =>
    intro T L hc
    cases hc with
    | field hf hr =>
      intro c hm
      rcases List.mem_cons.1 hm with rfl | hm
      · rcases loaded_field hs hv.reserved hf with ⟨_, e⟩ | ⟨h, _⟩
        · subst e
          rfl
        · exact absurd rfl h
      · exact ih hr c hm
  | field h1 h2 _ ih =>
    intro T L hc
    cases hc with
    | field hf hr =>
      intro c hm
      rcases List.mem_cons.1 hm with rfl | hm
      · rcases field_nested_iff hv hs hf with ⟨_, e⟩ | ⟨k, t, h3, _, h4⟩
        · exact e
        · rw [h1] at h3
          cases h3
          exact Bool.eq_false_iff.2 (fun e => h2 (h4.1 e))
      · exact ih hr c hm
  | inline _ _ ih1 ih2 =>
    intro T L hc
    cases hc with
    | inlineIn _ h1 h2 =>
      intro c hm
      rcases List.mem_append.1 hm with hm | hm
      · exact ih1 h1 c hm
      · exact ih2 h2 c hm
    | inlineOut _ h2 => exact ih2 h2
  | spread hg _ _ ih1 ih2 =>
    intro T L hc
    cases hc with
    | spreadIn hg' _ h1 h2 =>
      rw [hg] at hg'
      cases hg'
      intro c hm
      rcases List.mem_append.1 hm with hm | hm
      · exact ih1 h1 c hm
      · exact ih2 h2 c hm
    | spreadOut _ _ h2 => exact ih2 h2

/-- The composite fields. -/
def nestedOf (L : List Contribution) : List Contribution := L.filter Contribution.isNested

theorem nestedOf_leaves {L : List Contribution} (h : ∀ c ∈ L, c.isNested = false) : nestedOf L = [] :=
  List.filter_eq_nil_iff.2 (fun c hc => by simp [h c hc])

theorem nestedOf_append (L L' : List Contribution) : nestedOf (L ++ L') = nestedOf L ++ nestedOf L' :=
  List.filter_append _ _

/-- Where the rule is followed, the composite fields are the same for all object types, and what they select
follows the rule again. -/
theorem rule_collected (hv : ValidDoc doc) (hs : Schema.ofJson doc = .ok schema) {P : String}
    {items : List Selection} (h : FollowsRule doc frags P items) : ∀ {T : String} {L : List Contribution},
    T ∈ objectTypes doc P → Coll schema frags T P items L →
    (∀ c ∈ nestedOf L, FollowsRule doc frags c.field.type.name c.items) ∧
    ∀ {T' : String} {L' : List Contribution}, T' ∈ objectTypes doc P → Coll schema frags T' P items L' →
      nestedOf L = nestedOf L' := by
  induction h with
  | nil =>
    intro T L _ hc
    cases hc
    refine ⟨by simp [nestedOf], ?_⟩
    intro T' L' _ hc'
    cases hc'
    rfl
  | @field P pos al name args dirs items rest hsub _ _ ih =>
    intro T L hT hc
    cases hc with
    | @field _ _ _ _ _ _ _ _ f L hf hr =>
      obtain ⟨i1, i2⟩ := ih hT hr
      constructor
      · intro c hm
        obtain ⟨hm, hn⟩ := List.mem_filter.1 hm
        rcases List.mem_cons.1 hm with rfl | hm
        · rcases field_nested_iff hv hs hf with ⟨_, e⟩ | ⟨k, t, h3, h4, _⟩
          · exact absurd (e.symm.trans hn) (by simp)
          · have := hsub k t h3
            rw [h4] at this
            exact this
        · exact i1 c (List.mem_filter.2 ⟨hm, hn⟩)
      · intro T' L' hT' hc'
        cases hc' with
        | @field _ _ _ _ _ _ _ _ f' L' hf' hr' =>
          rw [hf] at hf'
          cases hf'
          have := i2 hT' hr'
          unfold nestedOf at *
          rw [List.filter_cons, List.filter_cons, this]
  | inline hall _ _ ih1 ih2 =>
    intro T L hT hc
    cases hc with
    | inlineIn hC h1 h2 =>
      rw [loaded_possible hs] at hC
      obtain ⟨a1, a2⟩ := ih1 hC h1
      obtain ⟨b1, b2⟩ := ih2 hT h2
      refine ⟨?_, ?_⟩
      · intro c hm
        rw [nestedOf_append] at hm
        rcases List.mem_append.1 hm with hm | hm
        · exact a1 c hm
        · exact b1 c hm
      · intro T' L' hT' hc'
        cases hc' with
        | inlineIn hC' h1' h2' =>
          rw [nestedOf_append, nestedOf_append, a2 (hall _ hT') h1', b2 hT' h2']
        | inlineOut hC' _ =>
          rw [loaded_possible hs] at hC'
          exact absurd (hall _ hT') hC'
    | inlineOut hC _ =>
      rw [loaded_possible hs] at hC
      exact absurd (hall _ hT) hC
  | @narrowInline P C pos dirs items rest hl _ ih =>
    intro T L hT hc
    have key : ∀ {T : String} {L : List Contribution},
        Coll schema frags T P (.inline pos (some C) dirs items :: rest) L →
        ∃ L₀, Coll schema frags T P rest L₀ ∧ nestedOf L = nestedOf L₀ := by
      intro T L hc
      cases hc with
      | inlineIn _ h1 h2 =>
        exact ⟨_, h2, by rw [nestedOf_append, nestedOf_leaves (leaves_collected hv hs hl h1), List.nil_append]⟩
      | inlineOut _ h2 => exact ⟨_, h2, rfl⟩
    obtain ⟨L₀, h0, e0⟩ := key hc
    obtain ⟨b1, b2⟩ := ih hT h0
    rw [e0]
    refine ⟨b1, ?_⟩
    intro T' L' hT' hc'
    obtain ⟨L₁, h1, e1⟩ := key hc'
    rw [e1]
    exact b2 hT' h1
  | spread hg hall _ _ ih1 ih2 =>
    intro T L hT hc
    cases hc with
    | spreadIn hg' hC h1 h2 =>
      rw [hg] at hg'
      cases hg'
      rw [loaded_possible hs] at hC
      obtain ⟨a1, a2⟩ := ih1 hC h1
      obtain ⟨b1, b2⟩ := ih2 hT h2
      refine ⟨?_, ?_⟩
      · intro c hm
        rw [nestedOf_append] at hm
        rcases List.mem_append.1 hm with hm | hm
        · exact a1 c hm
        · exact b1 c hm
      · intro T' L' hT' hc'
        cases hc' with
        | spreadIn hg' hC' h1' h2' =>
          rw [hg] at hg'
          cases hg'
          rw [nestedOf_append, nestedOf_append, a2 (hall _ hT') h1', b2 hT' h2']
        | spreadOut hg' hC' _ =>
          rw [hg] at hg'
          cases hg'
          rw [loaded_possible hs] at hC'
          exact absurd (hall _ hT') hC'
    | spreadOut hg' hC _ =>
      rw [hg] at hg'
      cases hg'
      rw [loaded_possible hs] at hC
      exact absurd (hall _ hT) hC
  | @narrowSpread P pos name dirs fd rest hg hl _ ih =>
    intro T L hT hc
    have key : ∀ {T : String} {L : List Contribution}, Coll schema frags T P (.spread pos name dirs :: rest) L →
        ∃ L₀, Coll schema frags T P rest L₀ ∧ nestedOf L = nestedOf L₀ := by
      intro T L hc
      cases hc with
      | spreadIn hg' _ h1 h2 =>
        rw [hg] at hg'
        cases hg'
        exact ⟨_, h2, by rw [nestedOf_append, nestedOf_leaves (leaves_collected hv hs hl h1), List.nil_append]⟩
      | spreadOut _ _ h2 => exact ⟨_, h2, rfl⟩
    obtain ⟨L₀, h0, e0⟩ := key hc
    obtain ⟨b1, b2⟩ := ih hT h0
    rw [e0]
    refine ⟨b1, ?_⟩
    intro T' L' hT' hc'
    obtain ⟨L₁, h1, e1⟩ := key hc'
    rw [e1]
    exact b2 hT' h1

/-- The same for merged selection sets. -/
theorem rule_collectedMany (hv : ValidDoc doc) (hs : Schema.ofJson doc = .ok schema) {T P : String}
    {sets : List (List Selection)} (h : ∀ s ∈ sets, FollowsRule doc frags P s) {L : List Contribution}
    (hT : T ∈ objectTypes doc P) (hL : CollMany schema frags T P sets L) :
    (∀ c ∈ nestedOf L, FollowsRule doc frags c.field.type.name c.items) ∧
    ∀ {T' : String} {L' : List Contribution}, T' ∈ objectTypes doc P → CollMany schema frags T' P sets L' →
      nestedOf L = nestedOf L' := by
  obtain ⟨Ls, h1, rfl⟩ := hL
  induction h1 with
  | nil =>
    refine ⟨by simp [nestedOf], ?_⟩
    rintro T' L' _ ⟨Ls', h2, rfl⟩
    cases h2
    rfl
  | cons a _ ih =>
    obtain ⟨a1, a2⟩ := rule_collected hv hs (h _ (by simp)) hT a
    obtain ⟨b1, b2⟩ := ih (fun s hs => h s (by simp [hs]))
    rw [List.flatten_cons, nestedOf_append]
    refine ⟨?_, ?_⟩
    · intro c hm
      rcases List.mem_append.1 hm with hm | hm
      · exact a1 c hm
      · exact b1 c hm
    · rintro T' L' hT' ⟨Ls', h2, rfl⟩
      cases h2 with
      | cons a' h2 => rw [List.flatten_cons, nestedOf_append, a2 hT' a', b2 hT' ⟨_, h2, rfl⟩]

/-- A key of a composite field has composite fields only; so its fields are found among those. -/
theorem key_nested {L : List Contribution} {key : String}
    (h : ∀ c ∈ L, c.key = key → c.isNested = true) :
    L.filter (fun c => decide (c.key = key)) = (nestedOf L).filter (fun c => decide (c.key = key)) := by
  unfold nestedOf
  rw [List.filter_filter]
  apply List.filter_congr
  intro c hc
  by_cases e : c.key = key
  · simp [e, h c hc e]
  · simp [e]

/-- The rule passes to every position. -/
theorem rule_position (hv : ValidDoc doc) (hs : Schema.ofJson doc = .ok schema) {P P' : String}
    {sets sets' : List (List Selection)} (hp : Position schema frags P sets P' sets') :
    OneTypePerKey schema frags P sets → (∀ s ∈ sets, FollowsRule doc frags P s) →
    IsComposite schema P' → ∀ s ∈ sets', FollowsRule doc frags P' s := by
  induction hp with
  | refl => exact fun _ h _ => h
  | @step P sets P' sets' T L c hT hL hc hp ih =>
    intro hone h hne
    have hT' := hT
    rw [loaded_possible hs] at hT'
    have hcomp : IsComposite schema c.field.type.name := by
      cases hp with
      | refl => exact hne
      | step h1 _ _ _ => exact composite_of_possible h1
    refine ih (fun P₁ sets₁ h1 => hone P₁ sets₁ (.step hT hL hc h1)) ?_ hne
    intro s hsm
    obtain ⟨c', hc', rfl⟩ := List.mem_map.1 hsm
    obtain ⟨hc', hk⟩ := List.mem_filter.1 hc'
    have hk : c'.key = c.key := by simpa using hk
    have hty := hone P sets .refl T hT L hL c' hc' c hc hk
    obtain ⟨P₀, name, hf⟩ := collMany_field hL c' hc'
    have hn : c'.isNested = true := ((loaded_consistent hv hs P₀ name _ hf).2).2 (by rw [hty]; exact hcomp)
    have := (rule_collectedMany hv hs h hT' hL).1 c' (List.mem_filter.2 ⟨hc', hn⟩)
    rw [hty] at this
    exact this

/-- **C124.** In a document that follows the rule of thumb, object types with the same response keys have the same
fields under them, all the way down: the condition of C22, C23 and C89 holds. -/
theorem C124_look_alikes_agree (hv : ValidDoc doc) (hs : Schema.ofJson doc = .ok schema) {P : String}
    {items : List Selection} (hone : OneTypePerKey schema frags P [items])
    (hsh : ShapesAgree schema frags P [items]) (h : FollowsRule doc frags P items) :
    LookAlikesAgree schema frags P [items] := by
  intro P' sets' hp T hT T' hT' L L' hL hL' hkeys n key
  have hrule := rule_position hv hs hp hone (fun s hsm => by rw [List.mem_singleton] at hsm; subst hsm; exact h)
    (composite_of_possible hT)
  have hnest := (rule_collectedMany hv hs hrule (by rw [← loaded_possible hs]; exact hT) hL).2
    (by rw [← loaded_possible hs]; exact hT') hL'
  have hshape := hsh P' sets' hp T hT
  by_cases hk : ∃ c ∈ L, c.key = key
  · obtain ⟨c₀, hc₀, hk₀⟩ := hk
    obtain ⟨c₀', hc₀', hk₀'⟩ := (hkeys key).1 ⟨c₀, hc₀, hk₀⟩
    by_cases hn : c₀.isNested = true
    · have same : ∀ {T₁ : String} {L₁ : List Contribution}, T₁ ∈ possibleTypes schema P' →
          CollMany schema frags T₁ P' sets' L₁ → ∀ c ∈ L₁, c.key = key → c.isNested = true := by
        intro T₁ L₁ hT₁ hL₁ c hc hck
        rcases (hshape T₁ hT₁ L L₁ hL hL₁ c₀ hc₀ c hc (hk₀.trans hck.symm)).2.2 with ⟨_, h2, _⟩ | ⟨h1, _⟩
        · exact h2
        · exact absurd (h1.symm.trans hn) (by simp)
      have e : L.filter (fun c => decide (c.key = key)) = L'.filter (fun c => decide (c.key = key)) := by
        rw [key_nested (same hT hL), key_nested (same hT' hL'), hnest]
      have hm : merged L key = merged L' key := by unfold merged; rw [e]
      rw [hm, e]
      cases L'.filter (fun c => decide (c.key = key)) with
      | nil => trivial
      | cons c rest => exact sameValues_refl (alikeTo_refl n _ _) _
    · have hmem : ∀ {L : List Contribution} {c : Contribution}, c ∈ L → c.key = key →
          ∃ a l, L.filter (fun c => decide (c.key = key)) = a :: l ∧ a ∈ L ∧ a.key = key := by
        intro L c hc hck
        cases hf : L.filter (fun c => decide (c.key = key)) with
        | nil =>
          have hm : c ∈ L.filter (fun c => decide (c.key = key)) := List.mem_filter.2 ⟨hc, by simp [hck]⟩
          rw [hf] at hm
          simp at hm
        | cons a l =>
          have : a ∈ L.filter (fun c => decide (c.key = key)) := by rw [hf]; simp
          obtain ⟨h1, h2⟩ := List.mem_filter.1 this
          exact ⟨a, l, rfl, h1, by simpa using h2⟩
      obtain ⟨a, l, e1, ha, hka⟩ := hmem hc₀ hk₀
      obtain ⟨a', l', e2, ha', hka'⟩ := hmem hc₀' hk₀'
      rw [e1, e2]
      have hna : a.isNested = false := by
        rcases (hshape T hT L L hL hL c₀ hc₀ a ha (hk₀.trans hka.symm)).2.2 with ⟨h1, _⟩ | ⟨_, h2, _⟩
        · exact absurd h1 hn
        · show a.field.type.definition.isComplex = false
          rw [← h2]
          exact Bool.eq_false_iff.2 hn
      obtain ⟨s1, s2, s3⟩ := hshape T' hT' L L' hL hL' a ha a' ha' (hka.trans hka'.symm)
      rcases s3 with ⟨h1, _⟩ | s3
      · exact absurd (hna.symm.trans h1) (by simp)
      · exact ⟨s1, s2, .inr s3⟩
  · have e1 : L.filter (fun c => decide (c.key = key)) = [] :=
      List.filter_eq_nil_iff.2 (fun c hc => by rw [decide_eq_true_eq]; exact fun e => hk ⟨c, hc, e⟩)
    have e2 : L'.filter (fun c => decide (c.key = key)) = [] :=
      List.filter_eq_nil_iff.2 (fun c hc => by rw [decide_eq_true_eq]; exact fun e => hk ((hkeys key).2 ⟨c, hc, e⟩))
    rw [e1, e2]
    trivial

variable {ω : Path → Hash} {ω' : Hash} {fuel threads : Nat} {ext : Ext} {cfg : CompileConfig} {w : World}
  {root : Entry} {rootPath : Path} {cwd : List String}

/-- **C124.** Every complete run over an ordinary project that GraphQL accepts and that follows the rule of thumb
exits with status 0, however its threads were scheduled, and then every document has an output file with a module
whose data type admits every response of a server and whose variables type admits all variables that a server
takes, when imported names mean what the globals file says. -/
theorem C124_right_types (hs : Schema.ofJson doc = .ok schema) (S : SchemaFit cfg.toTsConfig doc)
    (hk : KeepsNamedTypes doc) (ho : Ordinary cwd w cfg rootPath root) (F : ProjectFine ext w cfg doc rootPath root)
    (hm : ∀ p, FoundIn root p → MergingFile ext w cfg doc p) (applies : List Directive → Prop)
    (hf : ∀ p, FoundIn root p → RuledFile ext w cfg doc schema applies p)
    {s : PoolSt World} {ms : List Msg} {w' : World}
    (R : RunsTo ω ω' fuel ext cfg schema rootPath root threads w s ms w') (paint : Paint)
    (scalars env : String → JVal → Prop) (he : ScalarEnv cfg.toTsConfig doc scalars env) :
    (printExitInfo paint ms).code = 0 ∧
    ∃ g : List TsStmt,
      ((∃ n, UsedGlobal ω fuel ext cfg schema w root n) → HoldsModule w' (globalsId w cfg rootPath) g) ∧
      ((¬ ∃ n, UsedGlobal ω fuel ext cfg schema w root n) → g = []) ∧
      ∀ p, FoundIn root p → ∃ contents d frags m, w.read p = .ok contents ∧ ext.parse contents = .ok [d] ∧
        InScope ext w cfg p contents frags ∧ HoldsModule w' (w.resolve (outputPath p)) m ∧
        (∀ P, serverRoot d = some P → ∀ T ∈ objectTypes doc P, ∀ v,
          (∀ n, AnswersTo doc frags applies scalars n T [itemsOf d] v) →
          ∀ n, ModuleAdmits m (linked g env) n (dataName d) v) ∧
        (varsOf d ≠ [] → ∀ v, VariablesOf doc scalars (varsOf d) v →
          ∀ n, ModuleAdmits m (linked g env) n (dataName d ++ "Variables") v) := by
  obtain ⟨hr, hd, hg⟩ := C114_paths_apart ho
  have h0 := (C111_valid_project_succeeds S.valid hs F hr hd hg R paint).1
  refine ⟨h0, ?_⟩
  have hcon := loaded_consistent S.valid hs
  obtain ⟨ω₂, fuel₂, text, g, hgc, hgp, g1, g2, hfiles⟩ := run_texts hr hd hg R paint h0 hs S
  refine ⟨g, g1, g2, fun p hp => ?_⟩
  obtain ⟨contents, d, st, op, ws, c, G, hdisk, hsub⟩ := hfiles p hp
  obtain ⟨contents', d', hr', hp', I, hval, hsup⟩ := F.files p hp
  have e := G.readable
  rw [hr'] at e
  cases e
  have e := G.parses
  rw [hp'] at e
  simp only [Except.ok.injEq, List.cons.injEq, and_true] at e
  subst e
  have hsc := inScope_foreign ext cfg w p (ω p) G.scanned I.names
  obtain ⟨q1, q2⟩ := hm p hp _ d' hr' hp'
  obtain ⟨r1, r2, r3⟩ := hf p hp _ d' hr' hp'
  obtain ⟨r3, r4, r5⟩ := r3 _ hsc
  obtain ⟨P, hP, _⟩ := (hval _ hsc).selections
  obtain ⟨r5, r6⟩ := r5 P hP
  have hfr := fragsValid_of_gql S.valid hs (hval _ hsc) (fun name fd hget => q2 fd ((hsc name fd).1 hget).2)
  have hone := oneTypePerKey_of_merging S.valid hs hk (q1 _ hsc P hP)
  have hroot : rootType d' = some P := by rw [root_of_supported hsup, hP]
  have D : DocumentFit cfg.toTsConfig doc schema (parseForeignFragments (ω p) ext p st.imports st.messages).1 d'
      applies P :=
    { notSubscription := hsup.notSubscription
      root := hP
      oneType := hone
      lookAlikes := C124_look_alikes_agree S.valid hs hone r5 r6
      unconditional := r2
      fragsApply := r3
      name := r4.name
      keys := r4.keys
      fragmentKeys := r4.fragmentKeys
      variablesValid := r1
      variableNames := r4.variableNames
      apart := r4.apart }
  refine ⟨contents, d', (parseForeignFragments (ω p) ext p st.imports st.messages).1, ?_⟩
  have hsame := (C23_same_bodies_iff (ω p) fuel cfg.showDeprecationWarnings hcon hfr d' op ws P hroot G.valid
    D.oneType).2 D.lookAlikes
  have hname := name_of_compiled hcon G.valid
  have hmain : IsBinding op.name := by rw [hname]; exact D.name
  have hvs := fit_variables hs S D G.valid
  obtain ⟨m, g', hp1, hp2, hresp⟩ := C81_responses_inhabit_both_texts (ω p) ω₂ fuel fuel₂
    cfg.showDeprecationWarnings cfg.toTsConfig S.valid S.validInputs hs S.lists S.writable S.globalsWritable
    S.scalarsApart hfr d' op ws P D.notSubscription D.root G.valid D.oneType hsame applies
    D.unconditional D.fragsApply hmain D.keys D.fragmentKeys hvs
    (fun n hn => by rw [hname]; exact D.apart n (.inl hn)) scalars env he c G.generated s.aggregate.2 hsub text hgc
  rw [hgp] at hp2
  cases hp2
  refine ⟨m, hr', hp', hsc, ⟨_, hdisk, hp1⟩, ?_, ?_⟩
  · intro P' hP'
    rw [hP] at hP'
    cases hP'
    exact hresp
  · intro hne v hv
    obtain ⟨m', g', hq1, hq2, hvars⟩ := C80_variables_inhabit_text (ω p) ω₂ fuel fuel₂
      cfg.showDeprecationWarnings cfg.toTsConfig S.valid S.validInputs S.inputLists hs S.writable
      S.globalsWritable S.scalarsApart d' op ws P hroot G.valid hmain
      D.keys D.fragmentKeys hne D.variablesValid D.variableNames
      (fun n hn => by rw [hname]; exact D.apart n hn) scalars env he c G.generated s.aggregate.2 hsub text hgc
    rw [hp1] at hq1
    rw [hgp] at hq2
    cases hq1
    cases hq2
    exact hvars v hv

end

/-! ### An example -/

section
variable {doc : JSchema} {schema : Schema} {frags : Frags}

/-- Where a response key means one field everywhere, and a field name one type, shapes agree. -/
theorem shapes_of_keys (hv : ValidDoc doc) (hs : Schema.ofJson doc = .ok schema) {A : List (String × String)}
    (hA : ∀ a ∈ A, ∀ b ∈ A, a.1 = b.1 → a.2 = b.2)
    (hty : ∀ a ∈ A, ∀ P P' f f', fieldOf schema P a.2 = some f → fieldOf schema P' a.2 = some f' → f.type = f'.type)
    (hfr : ∀ x fd, AMap.get? frags x = some fd → ∀ a ∈ keyNames fd.items, a ∈ A) {P : String}
    {sets : List (List Selection)} (hk : ∀ s ∈ sets, ∀ a ∈ keyNames s, a ∈ A) : ShapesAgree schema frags P sets := by
  have facts : ∀ {T P : String} {sets : List (List Selection)} {L : List Contribution},
      T ∈ possibleTypes schema P → CollMany schema frags T P sets L → (∀ s ∈ sets, ∀ a ∈ keyNames s, a ∈ A) →
      ∀ c ∈ L, (c.key, c.field.name) ∈ A ∧ (∃ P₀, fieldOf schema P₀ c.field.name = some c.field) ∧
        ∀ a ∈ keyNames c.items, a ∈ A := by
    intro T P sets L hT hL hk c hc
    rw [loaded_possible hs] at hT
    obtain ⟨Ls, h1, e⟩ := collectMany_of_collMany hv hs (all_fragsApply frags) hL hT (fun s _ => all_unconditional s)
    obtain ⟨_, P₀, _, hf⟩ := collMany_origin hv hs (all_fragsApply frags) hL hT (fun s _ => all_unconditional s) c hc
    have hm : c.wanted ∈ Ls.flatten := by rw [← e]; exact List.mem_map.2 ⟨c, hc, rfl⟩
    obtain ⟨L₁, h2, hm⟩ := List.mem_flatten.1 hm
    obtain ⟨s, hs', h⟩ := forall₂_mem h1 L₁ h2
    obtain ⟨a1, a2⟩ := collect_keyNames hfr h (hk s hs') _ hm
    exact ⟨a1, ⟨P₀, hf⟩, a2⟩
  intro P' sets' hp
  induction hp with
  | refl =>
    intro T hT T' hT' L L' hL hL' c hc c' hc' hkey
    obtain ⟨a1, ⟨P₁, f1⟩, _⟩ := facts hT hL hk c hc
    obtain ⟨a2, ⟨P₂, f2⟩, _⟩ := facts hT' hL' hk c' hc'
    have hn := hA _ a1 _ a2 hkey
    simp only at hn
    rw [← hn] at f2
    rw [hty _ a1 P₁ P₂ _ _ f1 f2]
    exact sameValues_refl trivial _
  | step hT hL hc _ ih =>
    refine ih fun s hsm => ?_
    obtain ⟨c', hc', rfl⟩ := List.mem_map.1 hsm
    exact (facts hT hL hk c' (List.mem_filter.1 hc').1).2.2

/-- A check that field names have one type each. -/
def oneTypeB (schema : Schema) (names : List String) : Bool :=
  names.all (fun n => (AMap.keys schema).all (fun P => (AMap.keys schema).all (fun P' =>
    match fieldOf schema P n, fieldOf schema P' n with
    | some f, some f' => decide (f.type = f'.type)
    | _, _ => true)))

theorem oneTypeB_sound {names : List String} (h : oneTypeB schema names = true) {n : String} (hn : n ∈ names)
    {P P' : String} {f f' : SField} (hf : fieldOf schema P n = some f) (hf' : fieldOf schema P' n = some f') :
    f.type = f'.type := by
  have hkey : ∀ {P : String} {f : SField}, fieldOf schema P n = some f → P ∈ AMap.keys schema := by
    intro P f hf
    unfold fieldOf fieldsOf Schema.getType at hf
    cases hg : AMap.get? schema P with
    | none => rw [hg] at hf; simp at hf
    | some t => exact List.mem_map.2 ⟨_, AMap.mem_of_get? hg, rfl⟩
  unfold oneTypeB at h
  simp only [List.all_eq_true] at h
  have := h n hn P (hkey hf) P' (hkey hf')
  rw [hf, hf'] at this
  simpa using this

end

theorem demo_shapes (frags : Frags) (hfr : ∀ x fd, AMap.get? frags x = some fd → fd = Demo.fragF) {P : String} :
    ShapesAgree Demo.respSchema frags P [itemsOf Demo.query] ∧
    ShapesAgree Demo.respSchema frags P [Demo.fragF.items] := by
  have hb : oneTypeB Demo.respSchema ((keyNames (itemsOf Demo.query) ++ keyNames Demo.fragF.items).map Prod.snd)
      = true := by decide +kernel
  constructor <;>
  · refine shapes_of_keys resp_valid resp_loads (A := keyNames (itemsOf Demo.query) ++ keyNames Demo.fragF.items)
      (by decide) (fun a ha P P' f f' h1 h2 => oneTypeB_sound hb (List.mem_map.2 ⟨a, ha, rfl⟩) h1 h2) ?_ ?_
    · intro x fd hx a ha
      obtain rfl := hfr x fd hx
      exact List.mem_append_right _ ha
    · intro s hs a ha
      rw [List.mem_singleton] at hs
      subst hs
      first
        | exact List.mem_append_left _ ha
        | exact List.mem_append_right _ ha

theorem demo_rule_f (frags : Frags) : FollowsRule Demo.respJson frags "Node" Demo.fragF.items :=
  .field (fun k t h => by
    have h' : fieldType Demo.respJson "Node" "name" = some ("SCALAR", .named "String") := by decide +kernel
    exact .nil) .nil

theorem demo_rule_q (frags : Frags) (hfr : AMap.get? frags "F" = some Demo.fragF) :
    FollowsRule Demo.respJson frags "Query" (itemsOf Demo.query) := by
  have leafRule : ∀ (P : String) (a b : Nat) (n : String) (rest : List Selection),
      FollowsRule Demo.respJson frags P rest → FollowsRule Demo.respJson frags P (Demo.leaf a b n :: rest) :=
    fun P a b n rest h => .field (fun _ _ _ => .nil) h
  have f1 : fieldType Demo.respJson "Query" "node" = some ("INTERFACE", .named "Node") := by decide +kernel
  have f3 : fieldType Demo.respJson "User" "role" = some ("ENUM", .nonNull (.named "Role")) := by decide +kernel
  have f4 : fieldType Demo.respJson "User" "old" = some ("SCALAR", .named "Date") := by decide +kernel
  refine .field (fun k t h => ?_) (.field (fun k t h => ?_) .nil)
  · rw [f1] at h
    cases h
    refine leafRule _ _ _ _ _ (leafRule _ _ _ _ _ (.spread hfr (fun T h => h) (demo_rule_f frags)
      (.narrowInline (.field f3 ?_ (.field f4 ?_ .nil)) .nil)))
    · unfold CompositeKind; decide
    · unfold CompositeKind; decide
  · exact .field (fun k t h => leafRule _ _ _ _ _ .nil) .nil

theorem demo_ruled {p : Path} (hp : FoundIn Demo.fileTree p) : RuledFile Demo.runExt Demo.runWorld Demo.cfg
    Demo.respJson Demo.respSchema (fun d => d.isEmpty = true) p := by
  intro contents d hr hpa
  rcases demo_found hp with rfl | rfl
  · rw [runWorld_q] at hr
    cases hr
    have hq : Demo.runExt.parse Demo.runText = .ok [Demo.query] := rfl
    rw [hq] at hpa
    simp only [Except.ok.injEq, List.cons.injEq, and_true] at hpa
    subst hpa
    refine ⟨validVarsB_sound (by decide +kernel), by unfold Unconditional; decide, fun frags hsc => ?_⟩
    have hfr : ∀ x fd, AMap.get? frags x = some fd → fd = Demo.fragF :=
      fun x fd hx => run_imported_q.1 ((hsc x fd).1 hx).2
    refine ⟨?_, ⟨by decide, by decide, ?_, by decide, fun n hn => demo_outside hn⟩, ?_⟩
    · intro x fd hx
      obtain rfl := hfr x fd hx
      unfold Unconditional; decide
    · intro x fd hx
      obtain rfl := hfr x fd hx
      decide
    · intro P hP
      cases hP
      exact ⟨(demo_shapes frags hfr).1, demo_rule_q frags ((hsc "F" Demo.fragF).2 ⟨rfl, run_imported_q.2 rfl⟩)⟩
  · rw [runWorld_f] at hr
    cases hr
    have hq : Demo.runExt.parse "fragment F" = .ok [.fragment Demo.fragF] := rfl
    rw [hq] at hpa
    simp only [Except.ok.injEq, List.cons.injEq, and_true] at hpa
    subst hpa
    have hno : ∀ frags, InScope Demo.runExt Demo.runWorld Demo.cfg Demo.fPath "fragment F" frags →
        ∀ x fd, AMap.get? frags x = some fd → False := by
      intro frags hsc x fd hx
      obtain ⟨_, q, c, hl, _⟩ := (hsc x fd).1 hx
      exact run_loads_f hl
    refine ⟨validVarsB_sound (by decide +kernel), by unfold Unconditional; decide, fun frags hsc => ?_⟩
    refine ⟨fun x fd hx => (hno frags hsc x fd hx).elim, ⟨frag_document.name, frag_document.keys,
      fun x fd hx => (hno frags hsc x fd hx).elim, frag_document.variableNames, frag_document.apart⟩, ?_⟩
    intro P hP
    cases hP
    exact ⟨(demo_shapes frags (fun x fd hx => (hno frags hsc x fd hx).elim)).2, demo_rule_f frags⟩

/-- The demo project follows the rule; after a run the two files written for the query and the globals admit a
response and variables. -/
theorem C124_demo : ∃ s ms w' g m,
    RunsTo (fun _ => .inOrder) .reversed 9 Demo.runExt Demo.cfg Demo.respSchema ⟨true, ["r"]⟩ Demo.fileTree 1
      Demo.runWorld s ms w' ∧
    (printExitInfo .plain ms).code = 0 ∧ HoldsModule w' "/r/q.graphql.d.ts" m ∧
    (∀ n, ModuleAdmits m (linked g (leastEnv Demo.tsCfg Demo.respJson stringScalars)) n "Q" respValue) ∧
    ∀ n, ModuleAdmits m (linked g (leastEnv Demo.tsCfg Demo.respJson stringScalars)) n "QVariables" varsValue := by
  have a1 : (endsWith fullRun fullEnd).isSome = true := by decide +kernel
  obtain ⟨t₁, b1⟩ := Option.isSome_iff_exists.1 a1
  obtain ⟨ms, w', e₁, h1, h2, _, _⟩ := endsWith_some b1
  have R : RunsTo (fun _ => .inOrder) .reversed 9 Demo.runExt Demo.cfg Demo.respSchema ⟨true, ["r"]⟩
      Demo.fileTree 1 Demo.runWorld fullRun ms w' := ⟨⟨_, rfl⟩, h1, h2, e₁⟩
  have hle := leastEnv_for Demo.tsCfg Demo.respJson stringScalars
  obtain ⟨h0, g, _, _, hfiles⟩ := C124_right_types resp_loads full_schema
    (keeps_of_noNarrowing (noNarrowingB_sound (by decide +kernel))) C114_demo.1 demo_projectFine
    (fun p hp => demo_merging hp) _ (fun p hp => demo_ruled hp) R .plain stringScalars
    (leastEnv Demo.tsCfg Demo.respJson stringScalars) ⟨hle.string, hle.number, hle.boolean, hle.any, hle.custom⟩
  have hq : FoundIn Demo.fileTree Demo.qPath := (mem_filesOf _ _).1 (by decide +kernel)
  obtain ⟨contents, d, frags, m, hr, hp, hsc, hm, m1, m2⟩ := hfiles Demo.qPath hq
  rw [runWorld_q] at hr
  cases hr
  have hq : Demo.runExt.parse Demo.runText = .ok [Demo.query] := rfl
  rw [hq] at hp
  simp only [Except.ok.injEq, List.cons.injEq, and_true] at hp
  subst hp
  refine ⟨_, ms, w', g, m, R, h0, hm, m1 "Query" rfl "Query" (by decide +kernel) _ ?_, m2 (by decide) _ varsValue_ok⟩
  have hin : ∀ x fd, AMap.get? frags x = some fd → x = "F" ∧ fd = Demo.fragF := by
    intro x fd hx
    obtain ⟨h1, h2⟩ := (hsc x fd).1 hx
    have h3 := run_imported_q.1 h2
    subst h3
    exact ⟨h1.symm, rfl⟩
  refine fun n => answers_scope (fun x fd hx => ?_) (fun x fd hx => ?_) n _ _ _ ?_ (resp_answers n)
  · obtain ⟨rfl, rfl⟩ := hin x fd hx
    rfl
  · obtain ⟨rfl, rfl⟩ := hin x fd hx
    have e : spreadsSels Demo.fragF.items = [] := by decide +kernel
    intro y hy
    rw [e] at hy
    cases hy
  · intro s hs
    rw [List.mem_singleton] at hs
    subst hs
    have e : spreadsSels (itemsOf Demo.query) = ["F"] := by decide +kernel
    intro y hy
    rw [e, List.mem_singleton] at hy
    subst hy
    exact ⟨Demo.fragF, (hsc "F" Demo.fragF).2 ⟨rfl, run_imported_q.2 rfl⟩⟩

end Qlc
