import Mathlib.Data.Fintype.Pigeonhole
import Mathlib.Data.Set.Finite.List
import Verif.Props.Growth
import Verif.Props.Names
import Verif.Spec.Graphql
/-
Property C110: the documents that GraphQL accepts are compiled, but for a list of constructs.
-/
set_option autoImplicit false

namespace Qlc
open Spec

variable {doc : JSchema} {schema : Schema} {frags : Frags}

/-- A declared field of a composite type, loaded. -/
theorem field_of_declared (hv : ValidDoc doc) (hs : Schema.ofJson doc = .ok schema) {P name kind : String} {t : VarTy}
    (hP : CompositeNamed doc P) (hf : fieldType doc P name = some (kind, t)) :
    ∃ f, fieldOf schema P name = some f ∧ f.type.name = baseName t ∧ kindNamed doc (baseName t) = some kind := by
  have ha := loaded_answers hs hP name
  cases hl : lastNamed JField.name name (declaredFields doc P) with
  | none => unfold fieldType at hf; rw [hl] at hf; simp at hf
  | some j =>
    rw [hl] at ha
    obtain ⟨f, h1, h2⟩ := ha
    obtain ⟨k', t', h3, _, _, h4, _, h5, _⟩ := loaded_declared hv hl h2
    rw [hf] at h3
    cases h3
    exact ⟨f, h1, h5, h4⟩

/-- What GraphQL's rules say about a selection set, the program finds at every selection in it. -/
theorem occurs_gql (hv : ValidDoc doc) (hs : Schema.ofJson doc = .ok schema) {P P' : String} {N N' : List String}
    {items : List Selection} {sel : Selection} (ho : Occurs schema P N items P' N' sel) :
    (∀ s ∈ items, GqlSelection doc frags P s) → CompositeNamed doc P →
    (∀ pos dirs sub, ¬ WrittenIn items (.inline pos none dirs sub)) →
    (∀ pos al name args dirs sub, WrittenIn items (.field pos al name args dirs sub) →
      name ≠ "__schema" ∧ name ≠ "__type") →
    SelOk schema frags P' sel := by
  induction ho with
  | @here P N items sel hm =>
    intro hg hP hni hnm
    have hsel := hg sel hm
    cases hsel with
    | typename =>
      have := loaded_answers hs hP "__typename"
      cases hl : lastNamed JField.name "__typename" (declaredFields doc P) with
      | some j =>
        have := lastNamed_name hl
        exact absurd this.2 (hv.reserved P j this.1)
      | none =>
        rw [hl] at this
        simp only [if_true] at this
        refine ⟨_, this, ?_⟩
        rw [loaded_composite hs]
        simp only [ne_eq, not_true_eq_false, false_iff]
        rintro ⟨k, hk, _⟩
        change kindNamed doc "__typename" = _ at hk
        rw [hv.reservedType] at hk
        simp at hk
    | leaf hf hk =>
      obtain ⟨f, h1, h2, h3⟩ := field_of_declared hv hs hP hf
      refine ⟨f, h1, ?_⟩
      rw [loaded_composite hs, h2]
      simp only [ne_eq, not_true_eq_false, false_iff]
      rintro ⟨k, hk', hc⟩
      rw [h3] at hk'
      cases hk'
      exact hk hc
    | nested hf hk hne _ =>
      obtain ⟨f, h1, h2, h3⟩ := field_of_declared hv hs hP hf
      refine ⟨f, h1, ?_⟩
      rw [loaded_composite hs, h2]
      exact ⟨fun _ => ⟨_, h3, hk⟩, fun _ => hne⟩
    | introspection hn =>
      have := hnm _ _ _ _ _ _ (.here hm)
      rcases hn with ⟨rfl, _⟩ | ⟨rfl, _⟩
      · exact absurd rfl this.1
      · exact absurd rfl this.2
    | inline hc _ _ _ => exact ⟨_, rfl, (loaded_composite hs _).2 hc⟩
    | plainInline => exact absurd (.here hm) (hni _ _ _)
    | spread hg => exact ⟨_, hg⟩
  | @field P N items P' N' sel pos al name args dirs sub f hm hf hc ho ih =>
    intro hg hP hni hnm
    have hsel := hg _ hm
    have hnm' := hnm _ _ _ _ _ _ (.here hm)
    cases hsel with
    | typename => cases ho <;> simp_all
    | leaf => cases ho <;> simp_all
    | nested hf' hk hne hsub =>
      obtain ⟨f', h1, h2, h3⟩ := field_of_declared hv hs hP hf'
      rw [hf] at h1
      cases h1
      rw [h2] at ih
      exact ih hsub ⟨_, h3, hk⟩ (fun pos dirs sub h => hni pos dirs sub (.field hm h))
        (fun pos al name args dirs sub h => hnm pos al name args dirs sub (.field hm h))
    | introspection hn =>
      rcases hn with ⟨rfl, _⟩ | ⟨rfl, _⟩
      · exact absurd rfl hnm'.1
      · exact absurd rfl hnm'.2
  | @inline P N items P' N' sel pos C dirs sub hm hc ho ih =>
    intro hg hP hni hnm
    have hsel := hg _ hm
    cases hsel with
    | inline hC _ _ hsub =>
      exact ih hsub hC (fun pos dirs sub h => hni pos dirs sub (.inline hm h))
        (fun pos al name args dirs sub h => hnm pos al name args dirs sub (.inline hm h))

/-- Finitely many fragments without a cycle have no infinite chain of spreads. -/
theorem acyclic_of_noCycle (h : ∀ name, ¬ Relation.TransGen (SpreadsFragment frags) name name) :
    FragmentsAcyclic frags := by
  rintro ⟨c, hc⟩
  have hk : ∀ n, c n ∈ AMap.keys frags := by
    intro n
    obtain ⟨fd, h1, _⟩ := hc n
    exact List.mem_map.2 ⟨_, AMap.mem_of_get? h1, rfl⟩
  let f : Nat → {x // x ∈ AMap.keys frags} := fun n => ⟨c n, hk n⟩
  have hfin : Finite {x // x ∈ AMap.keys frags} := List.finite_toSet _
  obtain ⟨i, j, hne, he⟩ := Finite.exists_ne_map_eq_of_infinite f
  have he : c i = c j := congrArg Subtype.val he
  have hchain : ∀ i k, Relation.TransGen (SpreadsFragment frags) (c i) (c (i + k + 1)) := by
    intro i k
    induction k with
    | zero => exact .single (hc i)
    | succ k ih => exact ih.tail (hc (i + k + 1))
  rcases Nat.lt_or_gt_of_ne hne with hlt | hlt
  · obtain ⟨k, rfl⟩ := Nat.exists_eq_add_of_lt hlt
    have := hchain i k
    rw [← he] at this
    exact h _ this
  · obtain ⟨k, rfl⟩ := Nat.exists_eq_add_of_lt hlt
    have := hchain j k
    rw [he] at this
    exact h _ this

theorem known_of_input (hs : Schema.ofJson doc = .ok schema) {n : String} (h : InputTypeNamed doc n) :
    KnownTypeName schema n := by
  rcases h with h | ⟨k, hk, _⟩
  · exact .inl h
  · right
    have ht := loaded_type hs n
    unfold kindNamed at hk
    cases hj : typeNamed doc n with
    | none => rw [hj] at hk; simp at hk
    | some j =>
      rw [hj] at ht
      obtain ⟨t, ht, _⟩ := ht
      exact ⟨t, ht⟩

/-- If compiling such a definition comes to an end, it succeeds. -/
theorem accepted_of_returns (hv : ValidDoc doc) (hs : Schema.ofJson doc = .ok schema) {d : Definition}
    (hg : GqlValid doc frags d) (hu : Supported doc d) {ω : Hash} {fuel : Nat} {showDep : Bool} (cfg : TsConfig)
    {r : Except (List IrError) Operation} {ws : List Warning}
    (h : Operation.compile ω fuel ⟨schema, showDep, frags⟩ d = some (r, ws)) :
    ∃ op c, r = .ok op ∧ compileIr ω op cfg schema = .ok c := by
  have hcon := loaded_consistent hv hs
  obtain ⟨P, hP, hPc, hsel⟩ := hg.selections
  have hroot : rootType d = some P := by
    have hk := hu.keyword
    have hns := hu.notSubscription
    cases d with
    | selectionSet pos items => exact absurd rfl (hk pos items)
    | operation kw pos name vars dirs items =>
      cases kw
      · exact hP
      · exact hP
      · simp [isSubscription] at hns
    | fragment f => exact hP
  obtain ⟨op, rfl⟩ := (C07_compiles_iff_valid ω fuel showDep hcon d r ws h).2
    ⟨P, hroot, (loaded_composite hs P).2 hPc,
      fun P' N' sel ho => occurs_gql hv hs ho hsel hPc hu.conditions hu.noIntrospection,
      fun v hv => ⟨⟨(hg.variableTypes v hv).1, hu.oneList v hv⟩, known_of_input hs (hg.variableTypes v hv).2⟩⟩
  obtain ⟨hPc', _, ht, hfin⟩ := compiled_tree hcon hroot h
  have hne : AllNonempty op.collection := by
    rintro qs hq rfl
    obtain ⟨P', sets, hP', h'⟩ := composite_under hq hcon (fun n => ⟨_, _, hPc', ht n⟩) 1
    have hm := hu.members P' ((loaded_composite hs P').1 hP')
    rw [← loaded_possible hs] at hm
    obtain ⟨T, hT⟩ := List.exists_mem_of_ne_nil _ hm
    have := (h'.2.1 T).2 hT
    simp at this
  obtain ⟨c, hc⟩ := compileIr_ok ω cfg hne
    (fun vs hvs => variables_known (by rw [← hvs]; exact (finish_ok hfin).2.2))
  exact ⟨op, c, rfl, hc⟩

/-- **C110.** Every definition that GraphQL accepts and that uses none of the unsupported constructs is compiled,
and a file is generated for it: from some amount of time on, whatever the order of hash maps and the options. -/
theorem C110_accepts_graphql (hv : ValidDoc doc) (hs : Schema.ofJson doc = .ok schema) (d : Definition)
    (hg : GqlValid doc frags d) (hu : Supported doc d) :
    ∃ enough, ∀ fuel ≥ enough, ∀ (ω : Hash) (showDep : Bool) (cfg : TsConfig), ∃ op ws c,
      Operation.compile ω fuel ⟨schema, showDep, frags⟩ d = some (.ok op, ws) ∧
      compileIr ω op cfg schema = .ok c := by
  have hcon := loaded_consistent hv hs
  obtain ⟨n, hn⟩ := C13_acyclic_fragments_terminate (schema := schema) .inOrder true hcon d (acyclic_of_noCycle hg.acyclic)
  refine ⟨n, fun fuel hle ω showDep cfg => ?_⟩
  have hsome := C13_enough_fuel .inOrder ω true showDep hcon d n fuel hle hn
  obtain ⟨⟨r, ws⟩, h⟩ := Option.isSome_iff_exists.1 hsome
  obtain ⟨op, c, rfl, hc⟩ := accepted_of_returns hv hs hg hu cfg h
  exact ⟨op, ws, c, h, hc⟩

/-! ### A check of GraphQL's rules, for concrete cases -/

/-- A check of `CompositeNamed`. -/
def compositeB (doc : JSchema) (n : String) : Bool :=
  match kindNamed doc n with
  | some k => decide (CompositeKind k)
  | none => false

theorem compositeB_iff {n : String} : compositeB doc n = true ↔ CompositeNamed doc n := by
  unfold compositeB CompositeNamed
  cases kindNamed doc n <;> simp

/-- A check that two composite types share an object type. -/
def overlapB (doc : JSchema) (P C : String) : Bool := (objectTypes doc P).any (fun T => decide (T ∈ objectTypes doc C))

theorem overlapB_iff {P C : String} : overlapB doc P C = true ↔ ∃ T ∈ objectTypes doc P, T ∈ objectTypes doc C := by
  unfold overlapB
  simp

/-- A check of `GqlSelection`, down to a depth. -/
def gqlSelB (doc : JSchema) (frags : Frags) : Nat → String → Selection → Bool
  | 0, _, _ => false
  | n + 1, P, .field _ _ name _ _ items =>
    (decide (name = "__typename") && items.isEmpty) ||
    (match fieldType doc P name with
      | some (k, t) => if CompositeKind k then !items.isEmpty && items.all (gqlSelB doc frags n (baseName t))
        else items.isEmpty
      | none => false) ||
    (decide (P = "Query" ∧ name = "__schema") && compositeB doc "__Schema" && !items.isEmpty &&
      items.all (gqlSelB doc frags n "__Schema"))
  | n + 1, P, .inline _ cond _ items =>
    !items.isEmpty && match cond with
    | some C => compositeB doc C && overlapB doc P C && items.all (gqlSelB doc frags n C)
    | none => items.all (gqlSelB doc frags n P)
  | _ + 1, P, .spread _ name _ =>
    match AMap.get? frags name with
    | some fd => compositeB doc fd.typeCond && overlapB doc P fd.typeCond
    | none => false

theorem gqlSelB_sound : ∀ (n : Nat) (P : String) (s : Selection), gqlSelB doc frags n P s = true →
    GqlSelection doc frags P s := by
  intro n
  induction n with
  | zero => intro P s h; simp [gqlSelB] at h
  | succ n ih =>
    intro P s h
    cases s with
    | field pos al name args dirs items =>
      simp only [gqlSelB, Bool.or_eq_true, Bool.and_eq_true, decide_eq_true_eq, List.isEmpty_iff, List.all_eq_true,
        Bool.not_eq_true', List.isEmpty_eq_false_iff] at h
      rcases h with (⟨rfl, rfl⟩ | h) | ⟨⟨⟨⟨rfl, rfl⟩, hc⟩, hne⟩, hall⟩
      · exact .typename
      · split at h
        · rename_i k t hf
          split at h
          · rename_i hk
            simp only [Bool.and_eq_true, List.all_eq_true, Bool.not_eq_true', List.isEmpty_eq_false_iff] at h
            exact .nested hf hk h.1 (fun s hs => ih _ _ (h.2 s hs))
          · rename_i hk
            rw [List.isEmpty_iff] at h
            subst h
            exact .leaf hf hk
        · simp at h
      · exact .introspection (.inl ⟨rfl, rfl⟩) (compositeB_iff.1 hc) hne (fun s hs => ih _ _ (hall s hs))
    | inline pos cond dirs items =>
      simp only [gqlSelB, Bool.and_eq_true, Bool.not_eq_true', List.isEmpty_eq_false_iff] at h
      cases cond with
      | none =>
        simp only [List.all_eq_true] at h
        exact .plainInline h.1 (fun s hs => ih _ _ (h.2 s hs))
      | some C =>
        simp only [Bool.and_eq_true, List.all_eq_true] at h
        exact .inline (compositeB_iff.1 h.2.1.1) (overlapB_iff.1 h.2.1.2) h.1 (fun s hs => ih _ _ (h.2.2 s hs))
    | spread pos name dirs =>
      simp only [gqlSelB] at h
      cases hf : AMap.get? frags name with
      | none => rw [hf] at h; simp at h
      | some fd =>
        rw [hf] at h
        simp only [Bool.and_eq_true] at h
        exact .spread hf (compositeB_iff.1 h.1) (overlapB_iff.1 h.2)

/-- A check that no field and no inline fragment in the selection set is one of those that are not supported. -/
def plainSelsB : Nat → List Selection → Bool
  | 0, _ => false
  | n + 1, items => items.all (fun s => match s with
    | .field _ _ name _ _ sub => decide (name ≠ "__schema" ∧ name ≠ "__type") && plainSelsB n sub
    | .inline _ cond _ sub => cond.isSome && plainSelsB n sub
    | .spread .. => true)

/-- The selection is supported. -/
def PlainSel : Selection → Prop
  | .field _ _ name _ _ _ => name ≠ "__schema" ∧ name ≠ "__type"
  | .inline _ cond _ _ => cond.isSome = true
  | .spread .. => True

theorem plainSelsB_sound {items : List Selection} {s : Selection} (hw : WrittenIn items s) :
    ∀ n, plainSelsB n items = true → PlainSel s := by
  induction hw with
  | here hm =>
    rintro (_ | n) h
    · simp [plainSelsB] at h
    · have := (List.all_eq_true.1 h) _ hm
      unfold PlainSel
      split
      · simp only [Bool.and_eq_true, decide_eq_true_eq] at this; exact this.1
      · simp only [Bool.and_eq_true] at this; exact this.1
      · trivial
  | field hm _ ih =>
    rintro (_ | n) h
    · simp [plainSelsB] at h
    · have := (List.all_eq_true.1 h) _ hm
      simp only [Bool.and_eq_true] at this
      exact ih n this.2
  | inline hm _ ih =>
    rintro (_ | n) h
    · simp [plainSelsB] at h
    · have := (List.all_eq_true.1 h) _ hm
      simp only [Bool.and_eq_true] at this
      exact ih n this.2

/-- A check of `GqlValid` when no fragment spreads another one. -/
def gqlValidB (doc : JSchema) (frags : Frags) (d : Definition) : Bool :=
  (match serverRoot d with
    | some P => compositeB doc P && (itemsOf d).all (gqlSelB doc frags 9 P)
    | none => false) &&
  frags.all (fun e => compositeB doc e.2.typeCond && e.2.items.all (gqlSelB doc frags 9 e.2.typeCond) &&
    (spreadsSels e.2.items).isEmpty) &&
  decide (((varsOf d).map VarDef.name).Nodup) &&
  (varsOf d).all (fun v => wellFormedB v.type && (decide (baseName v.type ∈ ["ID", "String", "Float", "Int", "Boolean"]) ||
    decide (kindNamed doc (baseName v.type) ∈ [some "SCALAR", some "ENUM", some "INPUT_OBJECT"])))

theorem gqlValidB_sound {d : Definition} (h : gqlValidB doc frags d = true) : GqlValid doc frags d := by
  simp only [gqlValidB, Bool.and_eq_true, List.all_eq_true, decide_eq_true_eq, Bool.or_eq_true, List.isEmpty_iff] at h
  obtain ⟨⟨⟨h1, h2⟩, h3⟩, h4⟩ := h
  refine ⟨?_, ?_, ?_, h3, ?_⟩
  · cases hP : serverRoot d with
    | none => rw [hP] at h1; simp at h1
    | some P =>
      rw [hP] at h1
      simp only [Bool.and_eq_true, List.all_eq_true] at h1
      exact ⟨P, rfl, compositeB_iff.1 h1.1, fun s hs => gqlSelB_sound _ _ _ (h1.2 s hs)⟩
  · intro name fd hg
    have := h2 _ (AMap.mem_of_get? hg)
    exact ⟨compositeB_iff.1 this.1.1, fun s hs => gqlSelB_sound _ _ _ (this.1.2 s hs)⟩
  · intro name ht
    have hno : ∀ a b, ¬ SpreadsFragment frags a b := by
      rintro a b ⟨fd, hg, hb⟩
      rw [(h2 _ (AMap.mem_of_get? hg)).2] at hb
      simp at hb
    cases ht with
    | single h => exact hno _ _ h
    | tail _ h => exact hno _ _ h
  · intro v hv
    obtain ⟨h5, h6⟩ := h4 v hv
    refine ⟨wellFormedB_sound _ h5, ?_⟩
    rcases h6 with h6 | h6
    · exact .inl h6
    · simp only [List.mem_cons, List.not_mem_nil, or_false] at h6
      rcases h6 with h6 | h6 | h6
      · exact .inr ⟨_, h6, .inl rfl⟩
      · exact .inr ⟨_, h6, .inr (.inl rfl)⟩
      · exact .inr ⟨_, h6, .inr (.inr rfl)⟩

/-! ### Concrete cases -/

/-- A check of the conditions on the document. -/
theorem supported_of_check {d : Definition} (h1 : ∀ pos items, d ≠ .selectionSet pos items)
    (h2 : isSubscription d = false) (h3 : plainSelsB 9 (itemsOf d) = true) (h4 : ∀ v ∈ varsOf d, listDepth v.type ≤ 1)
    (h5 : (doc.types.map JType.name).all (fun P => !compositeB doc P || !(objectTypes doc P).isEmpty) = true) :
    Supported doc d := by
  refine ⟨h1, h2, ?_, ?_, h4, ?_⟩
  · intro pos dirs items hw
    have := plainSelsB_sound hw 9 h3
    simp [PlainSel] at this
  · intro pos al name args dirs items hw
    exact plainSelsB_sound hw 9 h3
  · intro P hP
    have hm : P ∈ doc.types.map JType.name := by
      obtain ⟨k, hk, _⟩ := hP
      exact kindNamed_mem hk
    have := (List.all_eq_true.1 h5) P hm
    rw [compositeB_iff.2 hP] at this
    simpa using this

/-- The demo query, with its fragment, meets the hypotheses. -/
theorem C110_demo : ValidDoc Demo.respJson ∧ Schema.ofJson Demo.respJson = .ok Demo.respSchema ∧
    GqlValid Demo.respJson Demo.ctx.fragments Demo.query ∧ Supported Demo.respJson Demo.query :=
  ⟨resp_valid, resp_loads, gqlValidB_sound (by decide +kernel),
    supported_of_check (by intro _ _ h; exact Definition.noConfusion h) rfl (by decide +kernel) (by decide)
      (by decide +kernel)⟩

/-- Introspection data with a type for subscriptions and the types of introspection itself. -/
def Demo.gqlJson : JSchema := ⟨[
  ⟨"OBJECT", "Query", none, none, none, some [Demo.fld "viewer" (Demo.t "OBJECT" "User")], none⟩,
  ⟨"OBJECT", "Subscription", none, none, none, some [Demo.fld "tick" (Demo.t "SCALAR" "Int")], none⟩,
  ⟨"OBJECT", "User", none, none, none, some [Demo.fld "id" (Demo.t "SCALAR" "ID")], none⟩,
  ⟨"OBJECT", "Bot", none, none, none, some [Demo.fld "id" (Demo.t "SCALAR" "ID")], none⟩,
  ⟨"OBJECT", "__Schema", none, none, none, some [Demo.fld "description" (Demo.t "SCALAR" "String")], none⟩,
  ⟨"SCALAR", "Int", none, none, none, none, none⟩,
  ⟨"SCALAR", "ID", none, none, none, none, none⟩,
  ⟨"SCALAR", "String", none, none, none, none, none⟩]⟩

/-- The schema loaded from it. -/
def Demo.gqlSchema : Schema := match Schema.ofJson Demo.gqlJson with | .ok s => s | .error _ => []

/-- `viewer { id }`. -/
def Demo.viewerId : Selection := .field ⟨1, 3⟩ none "viewer" [] [] [Demo.leaf 1 12 "id"]

/-- Documents that GraphQL accepts: `{ viewer { id } }`, `subscription S { tick }`,
`query Q { viewer { ... { id } } }`, `query Q { __schema { description } }` and
`query Q($x: [[Int]]) { viewer { id } }`. -/
def Demo.unsupported : List Definition := [
  .selectionSet ⟨1, 1⟩ [Demo.viewerId],
  .operation .subscription ⟨1, 1⟩ (some "S") [] [] [Demo.leaf 1 18 "tick"],
  .operation .query ⟨1, 1⟩ (some "Q") [] [] [.field ⟨1, 11⟩ none "viewer" [] [] [.inline ⟨1, 20⟩ none [] [Demo.leaf 1 26 "id"]]],
  .operation .query ⟨1, 1⟩ (some "Q") [] [] [.field ⟨1, 11⟩ none "__schema" [] [] [Demo.leaf 1 22 "description"]],
  .operation .query ⟨1, 1⟩ (some "Q") [⟨⟨1, 9⟩, "x", .list (.list (.named "Int")), none⟩] [] [Demo.viewerId]]

/-- The definition is rejected. -/
def rejectedB (schema : Schema) (d : Definition) : Bool :=
  match Operation.compile .inOrder 9 ⟨schema, true, []⟩ d with
  | some (.error (_ :: _), _) => true
  | _ => false

/-- **C110, what is not supported.** Each of these is valid GraphQL on a schema that loads and in which every
abstract type has members, but is rejected. -/
theorem C110_unsupported_witness : ValidDoc Demo.gqlJson ∧ Schema.ofJson Demo.gqlJson = .ok Demo.gqlSchema ∧
    (∀ P, CompositeNamed Demo.gqlJson P → objectTypes Demo.gqlJson P ≠ []) ∧
    ∀ d ∈ Demo.unsupported, GqlValid Demo.gqlJson [] d ∧
      ∃ e es ws, Operation.compile .inOrder 9 ⟨Demo.gqlSchema, true, []⟩ d = some (.error (e :: es), ws) := by
  refine ⟨validDocB_sound (by decide +kernel), loads_of_check (by decide +kernel), ?_, ?_⟩
  · exact (supported_of_check (d := .operation .query ⟨1, 1⟩ none [] [] []) (by intro _ _ h; exact Definition.noConfusion h)
      rfl (by decide +kernel) (by decide) (by decide +kernel)).members
  · intro d hd
    have hall : Demo.unsupported.all (fun d => gqlValidB Demo.gqlJson [] d && rejectedB Demo.gqlSchema d) = true := by
      decide +kernel
    have := (List.all_eq_true.1 hall) d hd
    rw [Bool.and_eq_true] at this
    refine ⟨gqlValidB_sound this.1, ?_⟩
    have h2 := this.2
    unfold rejectedB at h2
    split at h2
    · rename_i e es ws he
      exact ⟨e, es, ws, he⟩
    · simp at h2

/-- Introspection data with an interface that nothing implements. -/
def Demo.emptyJson : JSchema := ⟨[
  ⟨"OBJECT", "Query", none, none, none, some [Demo.fld "node" (Demo.t "INTERFACE" "Node")], none⟩,
  ⟨"INTERFACE", "Node", none, some [], none, some [Demo.fld "id" (Demo.t "SCALAR" "ID")], none⟩,
  ⟨"SCALAR", "ID", none, none, none, none, none⟩]⟩

/-- The schema loaded from it. -/
def Demo.emptySchema : Schema := match Schema.ofJson Demo.emptyJson with | .ok s => s | .error _ => []

/-- `query Q { node { id } }`. -/
def Demo.emptyQuery : Definition := .operation .query ⟨1, 1⟩ (some "Q") [] []
  [.field ⟨1, 11⟩ none "node" [] [] [Demo.leaf 1 18 "id"]]

/-- **C110, interfaces without implementations.** The document is valid and uses nothing that is not supported,
but no file is generated. -/
theorem C110_no_members_witness : ValidDoc Demo.emptyJson ∧ Schema.ofJson Demo.emptyJson = .ok Demo.emptySchema ∧
    GqlValid Demo.emptyJson [] Demo.emptyQuery ∧
    ∃ op ws e, Operation.compile .inOrder 9 ⟨Demo.emptySchema, true, []⟩ Demo.emptyQuery = some (.ok op, ws) ∧
      compileIr .inOrder op Demo.tsCfg Demo.emptySchema = .error e := by
  refine ⟨validDocB_sound (by decide +kernel), loads_of_check (by decide +kernel), gqlValidB_sound (by decide +kernel),
    ?_⟩
  have h : (match Operation.compile .inOrder 9 ⟨Demo.emptySchema, true, []⟩ Demo.emptyQuery with
    | some (.ok op, _) => match compileIr .inOrder op Demo.tsCfg Demo.emptySchema with
      | .error _ => true
      | .ok _ => false
    | _ => false) = true := by decide +kernel
  split at h
  · rename_i op ws e
    split at h
    · rename_i e' he
      exact ⟨op, ws, e', e, he⟩
    · simp at h
  · simp at h

theorem gql_nested {P name : String} {pos : Pos} {al : Option String} {args : List (String × Value)}
    {dirs : List Directive} {items : List Selection}
    (h : GqlSelection doc frags P (.field pos al name args dirs items)) (hne : items ≠ []) (h1 : name ≠ "__schema")
    (h2 : name ≠ "__type") : ∃ k t, fieldType doc P name = some (k, t) ∧
      ∀ s ∈ items, GqlSelection doc frags (baseName t) s := by
  cases h with
  | typename => exact absurd rfl hne
  | leaf => exact absurd rfl hne
  | nested hf _ _ hs => exact ⟨_, _, hf, hs⟩
  | introspection hn =>
    rcases hn with ⟨rfl, _⟩ | ⟨rfl, _⟩
    · exact absurd rfl h1
    · exact absurd rfl h2

theorem gql_inline {P C : String} {pos : Pos} {dirs : List Directive} {items : List Selection}
    (h : GqlSelection doc frags P (.inline pos (some C) dirs items)) :
    ∃ T ∈ objectTypes doc P, T ∈ objectTypes doc C := by
  cases h with
  | inline _ ho _ _ => exact ho

/-- Documents that GraphQL rejects: a variable declared twice, a variable of an object type, and an inline
fragment that can never apply. -/
def Demo.invalid : List Definition := [
  .operation .query ⟨1, 1⟩ (some "Q") [⟨⟨1, 9⟩, "x", .named "Int", none⟩, ⟨⟨1, 18⟩, "x", .named "ID", none⟩] []
    [Demo.viewerId],
  .operation .query ⟨1, 1⟩ (some "Q") [⟨⟨1, 9⟩, "x", .named "User", none⟩] [] [Demo.viewerId],
  .operation .query ⟨1, 1⟩ (some "Q") [] [] [.field ⟨1, 11⟩ none "viewer" [] []
    [.inline ⟨1, 20⟩ (some "Bot") [] [Demo.leaf 1 33 "id"]]]]

/-- **C110, what is not checked.** Each of these breaks a rule of GraphQL, and a file is generated all the
same. -/
theorem C110_unchecked_witness : ∀ d ∈ Demo.invalid, ¬ GqlValid Demo.gqlJson [] d ∧
    ∃ text, Demo.textOf Demo.tsCfg Demo.gqlSchema [] d = some text := by
  have hall : Demo.invalid.all (fun d => (Demo.textOf Demo.tsCfg Demo.gqlSchema [] d).isSome) = true := by
    decide +kernel
  intro d hd
  refine ⟨?_, Option.isSome_iff_exists.1 ((List.all_eq_true.1 hall) d hd)⟩
  simp only [Demo.invalid, List.mem_cons, List.not_mem_nil, or_false] at hd
  rcases hd with rfl | rfl | rfl
  · intro h
    exact absurd h.variableNames (by decide)
  · intro h
    obtain ⟨_, h⟩ := h.variableTypes _ (List.mem_singleton.2 rfl)
    rcases h with h | ⟨k, hk, h⟩
    · revert h; decide
    · have e : kindNamed Demo.gqlJson "User" = some "OBJECT" := by decide +kernel
      change kindNamed Demo.gqlJson "User" = _ at hk
      rw [e] at hk
      cases hk
      revert h; decide
  · intro h
    obtain ⟨P, hP, _, hs⟩ := h.selections
    cases hP
    obtain ⟨k, t, hf, hsub⟩ := gql_nested (hs _ (List.mem_singleton.2 rfl)) (by simp) (by decide) (by decide)
    have e : fieldType Demo.gqlJson "Query" "viewer" = some ("OBJECT", .named "User") := by decide +kernel
    rw [e] at hf
    cases hf
    have ho := gql_inline (hsub _ (List.mem_singleton.2 rfl))
    rw [← overlapB_iff] at ho
    exact absurd ho (by decide +kernel)

end Qlc
