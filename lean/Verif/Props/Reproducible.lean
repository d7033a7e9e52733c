import Verif.Props.Project
import Verif.Props.Report
import Verif.Props.Ordinary
import Verif.Props.Compose
import Verif.Props.Move
import Verif.Props.Exact
import Verif.Spec.Reproducible
/-
Property C123: what GraphQL accepts is generated reproducibly.
-/
set_option autoImplicit false

namespace Qlc
open Spec

section
variable {doc : JSchema} {schema : Schema} {frags : Frags}

theorem all_unconditional (items : List Selection) : Unconditional (fun _ => True) items := fun _ _ => trivial

theorem all_fragsApply (frags : Frags) : FragsApply (fun _ => True) frags := fun _ _ _ => all_unconditional _

/-- The field collected for an object type has the type that the object type declares, up to list and null
modifiers. -/
theorem collected_type (hv : ValidDoc doc) (hs : Schema.ofJson doc = .ok schema) (hk : KeepsNamedTypes doc)
    {T P₀ : String} {f : SField} (hT : T ∈ objectTypes doc P₀) (hf : fieldOf schema P₀ f.name = some f) :
    (f.name = "__typename" ∧ f = SField.newTypeName) ∨
    (f.name ≠ "__typename" ∧ ∃ k t, fieldType doc T f.name = some (k, t) ∧ baseName t = f.type.name) := by
  rcases loaded_field hs hv.reserved hf with h | ⟨hn, j, hl, hj⟩
  · exact .inl h
  · right
    obtain ⟨k, t, h1, _, _, _, _, h2, _⟩ := loaded_declared hv hl hj
    obtain ⟨k', t', h3, h4⟩ := hk P₀ T hT _ k t h1
    exact ⟨hn, k', t', h3, by rw [h4, h2]⟩

/-- **GraphQL's merging rule gives each response key one named type.** -/
theorem oneType_of_merging (hv : ValidDoc doc) (hs : Schema.ofJson doc = .ok schema) (hk : KeepsNamedTypes doc)
    {P P' : String} {sets sets' : List (List Selection)} (hp : Position schema frags P sets P' sets') :
    (∀ T ∈ objectTypes doc P, ∀ n, MergesWell doc frags (fun _ => True) n T sets) →
    ∀ T ∈ objectTypes doc P', ∀ n, MergesWell doc frags (fun _ => True) n T sets' := by
  induction hp with
  | refl => exact fun h => h
  | @step P sets P' sets' T L c hT hL hc _ ih =>
    intro h
    rw [loaded_possible hs] at hT
    refine ih fun T' hT' n => ?_
    have hW := collectMany_of_collMany hv hs (all_fragsApply frags) hL hT (fun s _ => all_unconditional s)
    obtain ⟨_, P₀, hT₀, hf₀⟩ := collMany_origin hv hs (all_fragsApply frags) hL hT (fun s _ => all_unconditional s) c hc
    have hm := (h T hT (n + 1) _ hW c.wanted (List.mem_map.2 ⟨c, hc, rfl⟩)).2
    rcases collected_type hv hs hk hT₀ hf₀ with ⟨_, e⟩ | ⟨_, k, t, h1, h2⟩
    · exfalso
      rw [e] at hT'
      obtain ⟨k, hk'⟩ : ∃ k, kindNamed doc "__typename" = some k := by
        change T' ∈ objectTypes doc "__typename" at hT'
        unfold objectTypes at hT'
        cases hty : typeNamed doc "__typename" with
        | none => rw [hty] at hT'; simp at hT'
        | some j => exact ⟨j.kind, by simp [kindNamed, hty]⟩
      rw [hv.reservedType] at hk'
      simp at hk'
    · have := hm k t h1 T' (by rw [h2]; exact hT')
      rw [List.filter_map, List.map_map] at this
      exact this

theorem oneTypePerKey_of_merging (hv : ValidDoc doc) (hs : Schema.ofJson doc = .ok schema) (hk : KeepsNamedTypes doc)
    {P : String} {items : List Selection}
    (h : ∀ T ∈ objectTypes doc P, ∀ n, MergesWell doc frags (fun _ => True) n T [items]) :
    OneTypePerKey schema frags P [items] := by
  intro P' sets' hp T hT L hL c hc c' hc' hkey
  rw [loaded_possible hs] at hT
  have hm := oneType_of_merging hv hs hk hp h T hT 1
  have hW := collectMany_of_collMany hv hs (all_fragsApply frags) hL hT (fun s _ => all_unconditional s)
  have horig := collMany_origin hv hs (all_fragsApply frags) hL hT (fun s _ => all_unconditional s)
  have hname : c'.field.name = c.field.name :=
    (hm _ hW c.wanted (List.mem_map.2 ⟨c, hc, rfl⟩)).1 c'.wanted (List.mem_map.2 ⟨c', hc', rfl⟩) hkey.symm
  obtain ⟨_, P₁, hT₁, hf₁⟩ := horig c hc
  obtain ⟨_, P₂, hT₂, hf₂⟩ := horig c' hc'
  rcases collected_type hv hs hk hT₁ hf₁ with ⟨n1, e1⟩ | ⟨n1, k1, t1, a1, b1⟩ <;>
  rcases collected_type hv hs hk hT₂ hf₂ with ⟨n2, e2⟩ | ⟨n2, k2, t2, a2, b2⟩
  · rw [e1, e2]
  · exact absurd (hname.trans n1) n2
  · exact absurd (hname.symm.trans n2) n1
  · rw [hname, a1] at a2
    cases a2
    rw [← b1, ← b2]

/-- Fragments that GraphQL accepts, and that use nothing unsupported, are valid for the program. -/
theorem fragsValid_of_gql (hv : ValidDoc doc) (hs : Schema.ofJson doc = .ok schema) {d : Definition}
    (hg : GqlValid doc frags d)
    (hsup : ∀ name fd, AMap.get? frags name = some fd → Supported doc (.fragment fd)) : FragsValid schema frags := by
  intro name fd hget
  obtain ⟨hc, hsel⟩ := hg.fragments name fd hget
  exact ⟨(loaded_composite hs _).2 hc, fun P' N' sel ho =>
    occurs_gql hv hs ho hsel hc (hsup name fd hget).conditions (hsup name fd hget).noIntrospection⟩

theorem root_of_supported {d : Definition} (hu : Supported doc d) : rootType d = serverRoot d := by
  have hk := hu.keyword
  have hns := hu.notSubscription
  cases d with
  | selectionSet pos items => exact absurd rfl (hk pos items)
  | operation kw pos name vars dirs items =>
    cases kw
    · rfl
    · rfl
    · simp [isSubscription] at hns
  | fragment f => rfl

variable {ext : Ext} {cfg : CompileConfig} {w : World} {p : Path}

/-- **C123.** What is generated for a valid file whose fields merge does not depend on the order of hash maps. -/
theorem C123_hash_proof (hv : ValidDoc doc) (hs : Schema.ofJson doc = .ok schema) (hk : KeepsNamedTypes doc)
    (hf : GqlFile ext w cfg doc p) (hm : MergingFile ext w cfg doc p) : HashProof ext schema w cfg p := by
  intro contents d hr hp
  obtain ⟨contents', d', hr', hp', I, hval, hsup⟩ := hf
  obtain ⟨h1, h2⟩ := hm contents d hr hp
  rw [hr] at hr'
  cases hr'
  rw [hp] at hp'
  simp only [Except.ok.injEq, List.cons.injEq, and_true] at hp'
  subst hp'
  refine ⟨I.names, fun frags hsc => ⟨fragsValid_of_gql hv hs (hval frags hsc) ?_, ?_⟩, ?_⟩
  · intro name fd hget
    exact h2 fd ((hsc name fd).1 hget).2
  · intro P hP
    rw [root_of_supported hsup] at hP
    exact oneTypePerKey_of_merging hv hs hk (h1 frags hsc P hP)
  · obtain ⟨frags, hfr⟩ : ∃ frags, InScope ext w cfg p contents frags :=
      let ⟨_, _, h⟩ := (C36_returns_iff w cfg p contents ⟨[], []⟩).2 ⟨I.finite, I.closed⟩
      ⟨_, inScope_foreign ext cfg w p .inOrder h I.names⟩
    exact (hval frags hfr).variableNames

variable {ω₁ ω₂ : Path → Hash} {ω₁' ω₂' : Hash} {fuel₁ fuel₂ threads₁ threads₂ : Nat} {s₁ s₂ : PoolSt World}
  {ms₁ ms₂ : List Msg} {w₁ w₂ : World} {root : Entry} {rootPath : Path} {cwd : List String}

/-- **C123.** Two complete runs over an ordinary project that GraphQL accepts, with any numbers of threads,
schedules and orders of hash maps, both exit with status 0, leave the same files behind and print the same report. -/
theorem C123_reproducible (hv : ValidDoc doc) (hs : Schema.ofJson doc = .ok schema) (hk : KeepsNamedTypes doc)
    (ho : Ordinary cwd w cfg rootPath root) (F : ProjectFine ext w cfg doc rootPath root)
    (hm : ∀ p, FoundIn root p → MergingFile ext w cfg doc p)
    (R₁ : RunsTo ω₁ ω₁' fuel₁ ext cfg schema rootPath root threads₁ w s₁ ms₁ w₁)
    (R₂ : RunsTo ω₂ ω₂' fuel₂ ext cfg schema rootPath root threads₂ w s₂ ms₂ w₂) (paint : Paint) :
    (printExitInfo paint ms₁).code = 0 ∧ (printExitInfo paint ms₂).code = 0 ∧ SameFiles w₁ w₂ ∧
    SameReport (printExitInfo paint ms₁).printed (printExitInfo paint ms₂).printed := by
  obtain ⟨hr, hd, hg⟩ := C114_paths_apart ho
  have h1 := (C111_valid_project_succeeds hv hs F hr hd hg R₁ paint).1
  have h2 := (C111_valid_project_succeeds hv hs F hr hd hg R₂ paint).1
  obtain ⟨a, _, c⟩ := C91_same_report paint (loaded_consistent hv hs) (ofJson_inputFieldsOnce hs) hr hd hg
    (fun p hp => C123_hash_proof hv hs hk (F.files p hp) (hm p hp)) R₁ R₂
  refine ⟨h1, h2, a, c ?_⟩
  have A := after_run hr hd hg R₁
  exact ((C74_exit_status hr hd hg R₁ paint).1 h1).globals _ (usedGlobal_iff A)

/-- **C123.** And a run over the result of a run leaves every file as it is. -/
theorem C123_second_run (hv : ValidDoc doc) (hs : Schema.ofJson doc = .ok schema) (hk : KeepsNamedTypes doc)
    (ho : Ordinary cwd w cfg rootPath root) (F : ProjectFine ext w cfg doc rootPath root)
    (hm : ∀ p, FoundIn root p → MergingFile ext w cfg doc p)
    (R₁ : RunsTo ω₁ ω₁' fuel₁ ext cfg schema rootPath root threads₁ w s₁ ms₁ w₁)
    (R₂ : RunsTo ω₂ ω₂' fuel₂ ext cfg schema rootPath root threads₂ w₁ s₂ ms₂ w₂) : SameFiles w₁ w₂ := by
  obtain ⟨hr, hd, hg⟩ := C114_paths_apart ho
  exact C58_second_run_changes_nothing (loaded_consistent hv hs) (ofJson_inputFieldsOnce hs) hr hd hg
    (fun p hp => C123_hash_proof hv hs hk (F.files p hp) (hm p hp)) R₁ R₂

/-- **C123.** No object type generated for a document that GraphQL accepts lists a property twice. -/
theorem C123_properties_once (hv : ValidDoc doc) (hs : Schema.ofJson doc = .ok schema) (hk : KeepsNamedTypes doc)
    {d : Definition} (hg : GqlValid doc frags d) (hu : Supported doc d) (hm : FieldsMerge doc frags d)
    (hsup : ∀ name fd, AMap.get? frags name = some fd → Supported doc (.fragment fd)) {ω : Hash} {fuel : Nat}
    {showDep : Bool} {op : Operation} {ws : List Warning}
    (h : Operation.compile ω fuel ⟨schema, showDep, frags⟩ d = some (.ok op, ws)) : DistinctPoss op.collection := by
  obtain ⟨P, hP, _⟩ := hg.selections
  have hroot : rootType d = some P := by rw [root_of_supported hu, hP]
  exact C21_properties_listed_once ω fuel showDep (loaded_consistent hv hs) (fragsValid_of_gql hv hs hg hsup) d op ws P
    hroot h (oneTypePerKey_of_merging hv hs hk (hm P hP))

/-- Schemas without narrowing keep the named types. -/
theorem keeps_of_noNarrowing (h : NoNarrowing doc) : KeepsNamedTypes doc :=
  fun P T hT name k t hf => ⟨k, t, h P T hT name k t hf, rfl⟩

end

/-! ### An example -/

theorem demo_merges_all (frags : Frags) (hfr : ∀ x fd, AMap.get? frags x = some fd → fd = Demo.fragF) (n : Nat)
    (T : String) : MergesWell Demo.respJson frags (fun _ => True) n T [itemsOf Demo.query] := by
  refine mergesWell_of_keys (A := keyNames (itemsOf Demo.query) ++ keyNames Demo.fragF.items) (by decide) ?_ n T _ ?_
  · intro x fd hx a ha
    obtain rfl := hfr x fd hx
    exact List.mem_append_right _ ha
  · intro s hs a ha
    rw [List.mem_singleton] at hs
    subst hs
    exact List.mem_append_left _ ha

theorem demo_merges_frag (frags : Frags) (hfr : ∀ x fd, AMap.get? frags x = some fd → fd = Demo.fragF) (n : Nat)
    (T : String) : MergesWell Demo.respJson frags (fun _ => True) n T [Demo.fragF.items] := by
  refine mergesWell_of_keys (A := keyNames Demo.fragF.items) (by decide) ?_ n T _ ?_
  · intro x fd hx a ha
    obtain rfl := hfr x fd hx
    exact ha
  · intro s hs a ha
    rw [List.mem_singleton] at hs
    subst hs
    exact ha

theorem demo_merging {p : Path} (hp : FoundIn Demo.fileTree p) :
    MergingFile Demo.runExt Demo.runWorld Demo.cfg Demo.respJson p := by
  intro contents d hr hpa
  rcases demo_found hp with rfl | rfl
  · rw [runWorld_q] at hr
    cases hr
    have hq : Demo.runExt.parse Demo.runText = .ok [Demo.query] := rfl
    rw [hq] at hpa
    simp only [Except.ok.injEq, List.cons.injEq, and_true] at hpa
    subst hpa
    refine ⟨fun frags hsc P _ T _ n => demo_merges_all frags ?_ n T, fun f hf => ?_⟩
    · exact fun x fd hx => run_imported_q.1 ((hsc x fd).1 hx).2
    · rw [run_imported_q.1 hf]
      exact demo_supported_f
  · rw [runWorld_f] at hr
    cases hr
    have hq : Demo.runExt.parse "fragment F" = .ok [.fragment Demo.fragF] := rfl
    rw [hq] at hpa
    simp only [Except.ok.injEq, List.cons.injEq, and_true] at hpa
    subst hpa
    refine ⟨fun frags hsc P _ T _ n => demo_merges_frag frags ?_ n T, fun f hf => ?_⟩
    · intro x fd hx
      obtain ⟨_, q, c, hl, _⟩ := (hsc x fd).1 hx
      exact absurd hl run_loads_f
    · obtain ⟨q, c, hl, _⟩ := hf
      exact absurd hl run_loads_f

/-- The same run under another order of hash maps. -/
def otherRun : PoolSt World :=
  (PoolSt.init Demo.runWorld 1 Demo.fileTree).run
    (poolCompile (fun _ => .reversed) 9 Demo.runExt Demo.cfg Demo.respSchema) 1 Demo.fileSched

/-- Its end. -/
def otherEnd : Option (List Msg × World) :=
  finishWork .inOrder 9 Demo.cfg Demo.respSchema otherRun.world ⟨true, ["r"]⟩ otherRun.aggregate

/-- The demo project, run twice with different orders of hash maps. -/
theorem C123_demo : ∃ s₁ ms₁ w₁ s₂ ms₂ w₂,
    RunsTo (fun _ => .inOrder) .reversed 9 Demo.runExt Demo.cfg Demo.respSchema ⟨true, ["r"]⟩ Demo.fileTree 1
      Demo.runWorld s₁ ms₁ w₁ ∧
    RunsTo (fun _ => .reversed) .inOrder 9 Demo.runExt Demo.cfg Demo.respSchema ⟨true, ["r"]⟩ Demo.fileTree 1
      Demo.runWorld s₂ ms₂ w₂ ∧
    (printExitInfo .plain ms₁).code = 0 ∧ (printExitInfo .plain ms₂).code = 0 ∧ SameFiles w₁ w₂ ∧
    SameReport (printExitInfo .plain ms₁).printed (printExitInfo .plain ms₂).printed := by
  have a1 : (endsWith fullRun fullEnd).isSome = true := by decide +kernel
  have a2 : (endsWith otherRun otherEnd).isSome = true := by decide +kernel
  obtain ⟨t₁, b1⟩ := Option.isSome_iff_exists.1 a1
  obtain ⟨t₂, b2⟩ := Option.isSome_iff_exists.1 a2
  obtain ⟨ms₁, w₁, e₁, h1, h2, _, _⟩ := endsWith_some b1
  obtain ⟨ms₂, w₂, e₂, g1, g2, _, _⟩ := endsWith_some b2
  have R₁ : RunsTo (fun _ => .inOrder) .reversed 9 Demo.runExt Demo.cfg Demo.respSchema ⟨true, ["r"]⟩
      Demo.fileTree 1 Demo.runWorld fullRun ms₁ w₁ := ⟨⟨_, rfl⟩, h1, h2, e₁⟩
  have R₂ : RunsTo (fun _ => .reversed) .inOrder 9 Demo.runExt Demo.cfg Demo.respSchema ⟨true, ["r"]⟩
      Demo.fileTree 1 Demo.runWorld otherRun ms₂ w₂ := ⟨⟨_, rfl⟩, g1, g2, e₂⟩
  exact ⟨_, _, _, _, _, _, R₁, R₂, C123_reproducible resp_valid resp_loads
    (keeps_of_noNarrowing (noNarrowingB_sound (by decide +kernel))) C114_demo.1 demo_projectFine
    (fun p hp => demo_merging hp) R₁ R₂ .plain⟩

/-- The introspection data with a narrowed field, and with the scalar it uses. -/
def Demo.narrowedJson : JSchema := ⟨Demo.covJson.types ++ [⟨"SCALAR", "String", none, none, none, none, none⟩]⟩

/-- The schema loaded from it. -/
def Demo.narrowedSchema : Schema := match Schema.ofJson Demo.narrowedJson with | .ok s => s | .error _ => []

/-- Text generated for the query on it. -/
def narrowedText (ω : Hash) : Option String :=
  match Operation.compile ω 5 ⟨Demo.narrowedSchema, true, []⟩ Demo.covQuery with
  | some (.ok op, _) =>
    match compileIr ω op ⟨false, .realName, "g", "d"⟩ Demo.narrowedSchema with
    | .ok c => some c.contents
    | .error _ => none
  | _ => none

/-- **C123, the proviso is needed.** Where an object type narrows a field of its interface to another named type,
two orders of hash maps give different texts for a document that GraphQL accepts, merging rule included. -/
theorem C123_narrowing_witness : ValidDoc Demo.narrowedJson ∧ Schema.ofJson Demo.narrowedJson = .ok Demo.narrowedSchema ∧
    GqlValid Demo.narrowedJson [] Demo.covQuery ∧ Supported Demo.narrowedJson Demo.covQuery ∧
    FieldsMerge Demo.narrowedJson [] Demo.covQuery ∧ ¬ KeepsNamedTypes Demo.narrowedJson ∧
    ∃ t t', narrowedText .inOrder = some t ∧ narrowedText .reversed = some t' ∧ t ≠ t' := by
  refine ⟨validDocB_sound (by decide +kernel), loads_of_check (by decide +kernel), gqlValidB_sound (by decide +kernel),
    supported_of_check (by intro _ _ h; exact Definition.noConfusion h) rfl (by decide +kernel) (by decide)
      (by decide +kernel), ?_, ?_, ?_⟩
  · intro P _ T _ n
    refine mergesWell_of_keys (A := keyNames (itemsOf Demo.covQuery)) (by decide) ?_ n T _ ?_
    · intro x fd hx
      simp [AMap.get?] at hx
    · intro s hs a ha
      rw [List.mem_singleton] at hs
      subst hs
      exact ha
  · intro h
    obtain ⟨k, t, h1, h2⟩ := h "Node" "User" (by decide +kernel) "owner" "INTERFACE" (.named "Node") (by decide +kernel)
    have h3 : fieldType Demo.narrowedJson "User" "owner" = some ("OBJECT", .named "User") := by decide +kernel
    rw [h3] at h1
    cases h1
    revert h2
    decide
  · have h1 : (narrowedText .inOrder).isSome = true := by decide +kernel
    have h2 : (narrowedText .reversed).isSome = true := by decide +kernel
    have h3 : narrowedText .inOrder ≠ narrowedText .reversed := by decide +kernel
    obtain ⟨t, ht⟩ := Option.isSome_iff_exists.1 h1
    obtain ⟨t', ht'⟩ := Option.isSome_iff_exists.1 h2
    exact ⟨t, t', ht, ht', fun e => h3 (by rw [ht, ht', e])⟩

end Qlc
