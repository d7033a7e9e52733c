import Verif.Lemmas.IRDepth
import Verif.Props.Selections
/-
Properties C10, C11, C12, C17, C21: the alternatives and properties generated for a definition.
-/
set_option autoImplicit false

namespace Qlc
open Spec

variable {schema : Schema} {frags : Frags}

/-! ### The tree of a compiled definition -/

theorem compiled_tree {ω : Hash} {fuel : Nat} {showDep : Bool} (hcon : Consistent schema)
    {d : Definition} {op : Operation} {ws : List Warning} {P : String} (hP : rootType d = some P)
    (h : Operation.compile ω fuel ⟨schema, showDep, frags⟩ d = some (.ok op, ws)) :
    IsComposite schema P ∧ checkSels schema frags true P (itemsOf d) = [] ∧
      (∀ n, TreeIs schema (collectorX schema frags) n P [itemsOf d] op.collection) ∧
      finish schema d op.collection = .ok op := by
  rcases compile_spec ω fuel showDep hcon d _ ws P hP h with ⟨_, ⟨pos, _, h1⟩, _⟩ | ⟨h1, es, h2, _, h4, h5⟩
  · simp at h1
  · have hes : es = [] := by
      by_contra hne
      have := h4 hne
      simp at this
    subst hes
    obtain ⟨coll, ht, hr⟩ := h5 rfl
    have hc : op.collection = coll := by
      unfold finish at hr
      split at hr
      · simp at hr
      · injection hr with hr; rw [hr]
    refine ⟨h1, by simpa using h2.1.symm, ?_, ?_⟩
    · rw [hc]; exact ht
    · rw [hc, ← hr]

/-- **C10, C11, C17.** With valid imported fragments the whole generated tree, to any depth, is the one
GraphQL's field collection describes: at each position one alternative per possible object type, sorted,
and per alternative one property per response key and named type collected.  Sub-selections of fields with
the same key and named type are merged. -/
theorem C10_generated_tree (ω : Hash) (fuel : Nat) (showDep : Bool) (hcon : Consistent schema)
    (hfr : FragsValid schema frags) (d : Definition) (op : Operation) (ws : List Warning) (P : String)
    (hP : rootType d = some P)
    (h : Operation.compile ω fuel ⟨schema, showDep, frags⟩ d = some (.ok op, ws)) (n : Nat) :
    TreeIs schema (CollMany schema frags) n P [itemsOf d] op.collection := by
  obtain ⟨_, hc, ht, _⟩ := compiled_tree hcon hP h
  refine treeX_tree hcon hfr n P _ _ ?_ (ht n)
  intro s hs
  rw [List.mem_singleton] at hs; subst hs
  exact hc

/-- **C10.** At every depth and for every object type there, the generated property names are exactly the
response keys that GraphQL collects for that object type, provided each response key has one named type. -/
theorem C10_properties_are_response_keys (ω : Hash) (fuel : Nat) (showDep : Bool)
    (hcon : Consistent schema) (hfr : FragsValid schema frags) (d : Definition) (op : Operation)
    (ws : List Warning) (P : String) (hP : rootType d = some P)
    (h : Operation.compile ω fuel ⟨schema, showDep, frags⟩ d = some (.ok op, ws))
    (hone : OneTypePerKey schema frags P [itemsOf d])
    {P' : String} {sets' : List (List Selection)} {ps' : List Complex}
    (hb : Below schema frags P [itemsOf d] op.collection P' sets' ps')
    {T : String} {fields : List IRField} (hm : Complex.mk T fields ∈ ps') :
    ∃ L, CollMany schema frags T P' sets' L ∧
      ∀ key, key ∈ fields.map IRField.propName ↔ ∃ c ∈ L, c.key = key := by
  have ht := C10_generated_tree ω fuel showDep hcon hfr d op ws P hP h
  obtain ⟨_, ht'⟩ := tree_below hb (distinct_of_oneType _ _ _ _ le_rfl hone ht) ht
  obtain ⟨L, hL, hF⟩ := (ht' 1).2.2 T fields hm
  exact ⟨L, hL, keys_iff hF⟩

/-- **C10.** At the top of the document no proviso is needed. -/
theorem C10_top_level_properties (ω : Hash) (fuel : Nat) (showDep : Bool)
    (hcon : Consistent schema) (hfr : FragsValid schema frags) (d : Definition) (op : Operation)
    (ws : List Warning) (P : String) (hP : rootType d = some P)
    (h : Operation.compile ω fuel ⟨schema, showDep, frags⟩ d = some (.ok op, ws))
    {T : String} {fields : List IRField} (hm : Complex.mk T fields ∈ op.collection) :
    ∃ L, Coll schema frags T P (itemsOf d) L ∧
      ∀ key, key ∈ fields.map IRField.propName ↔ ∃ c ∈ L, c.key = key := by
  obtain ⟨L, ⟨Ls, hL, e⟩, hF⟩ := (C10_generated_tree ω fuel showDep hcon hfr d op ws P hP h 1).2.2 T fields hm
  cases hL with
  | cons h1 h2 =>
    cases h2
    refine ⟨_, h1, ?_⟩
    simp only [List.flatten_cons, List.flatten_nil, List.append_nil] at e
    subst e
    exact keys_iff hF

/-! ### C11 -/

/-- **C11.** The alternatives generated at the top are exactly the possible object types, each once and in
sorted order, whatever the imported fragments contain. -/
theorem C11_top_level_alternatives (ω : Hash) (fuel : Nat) (showDep : Bool) (hcon : Consistent schema)
    (d : Definition) (op : Operation) (ws : List Warning) (P : String) (hP : rootType d = some P)
    (h : Operation.compile ω fuel ⟨schema, showDep, frags⟩ d = some (.ok op, ws)) :
    (op.collection.map Complex.name).Pairwise (· < ·) ∧
      ∀ T, T ∈ op.collection.map Complex.name ↔ T ∈ possibleTypes schema P := by
  obtain ⟨_, _, ht, _⟩ := compiled_tree hcon hP h
  exact ⟨(ht 1).1, (ht 1).2.1⟩

/-- **C11.** The same at every depth. -/
theorem C11_alternatives_are_possible_types (ω : Hash) (fuel : Nat) (showDep : Bool)
    (hcon : Consistent schema) (hfr : FragsValid schema frags) (d : Definition) (op : Operation)
    (ws : List Warning) (P : String) (hP : rootType d = some P)
    (h : Operation.compile ω fuel ⟨schema, showDep, frags⟩ d = some (.ok op, ws))
    (hone : OneTypePerKey schema frags P [itemsOf d])
    {P' : String} {sets' : List (List Selection)} {ps' : List Complex}
    (hb : Below schema frags P [itemsOf d] op.collection P' sets' ps') :
    (ps'.map Complex.name).Pairwise (· < ·) ∧
      ∀ T, T ∈ ps'.map Complex.name ↔ T ∈ possibleTypes schema P' := by
  have ht := C10_generated_tree ω fuel showDep hcon hfr d op ws P hP h
  obtain ⟨_, ht'⟩ := tree_below hb (distinct_of_oneType _ _ _ _ le_rfl hone ht) ht
  exact ⟨(ht' 1).1, (ht' 1).2.1⟩

/-! ### C17 -/

/-- **C17.** At every depth: the property of a response key takes its documentation, deprecation mark and
list/null modifiers from the first field collected under that key. -/
theorem C17_first_selection_decides (ω : Hash) (fuel : Nat) (showDep : Bool)
    (hcon : Consistent schema) (hfr : FragsValid schema frags) (d : Definition) (op : Operation)
    (ws : List Warning) (P : String) (hP : rootType d = some P)
    (h : Operation.compile ω fuel ⟨schema, showDep, frags⟩ d = some (.ok op, ws))
    (hone : OneTypePerKey schema frags P [itemsOf d])
    {P' : String} {sets' : List (List Selection)} {ps' : List Complex}
    (hb : Below schema frags P [itemsOf d] op.collection P' sets' ps')
    {T : String} {fields : List IRField} (hm : Complex.mk T fields ∈ ps') {fld : IRField}
    (hf : fld ∈ fields) :
    ∃ L c rest, CollMany schema frags T P' sets' L ∧
      L.filter (fun c => decide (c.key = fld.propName)) = c :: rest ∧
      fld.documentation = c.field.documentation ∧ fld.deprecated = c.field.deprecated ∧
      fld.last = c.field.type.last ∧ fld.rest = c.field.type.rest := by
  have ht := C10_generated_tree ω fuel showDep hcon hfr d op ws P hP h
  obtain ⟨hd', ht'⟩ := tree_below hb (distinct_of_oneType _ _ _ _ le_rfl hone ht) ht
  obtain ⟨L, hL, hF⟩ := (ht' 1).2.2 T fields hm
  obtain ⟨c, rest, e, k1, k2, k3, k4, k5, _⟩ := fieldIs_merged hF (mem_distinctPoss hd' hm).1 hf
  exact ⟨L, c, rest, hL, e, k2, k3, k4, k5⟩

/-! ### C21 -/

/-- **C21.** If each response key has a single named type, each generated object type, at every depth, lists
each property once. -/
theorem C21_properties_listed_once (ω : Hash) (fuel : Nat) (showDep : Bool)
    (hcon : Consistent schema) (hfr : FragsValid schema frags) (d : Definition) (op : Operation)
    (ws : List Warning) (P : String) (hP : rootType d = some P)
    (h : Operation.compile ω fuel ⟨schema, showDep, frags⟩ d = some (.ok op, ws))
    (hone : OneTypePerKey schema frags P [itemsOf d]) : DistinctPoss op.collection :=
  distinct_of_oneType _ _ _ _ le_rfl hone
    (C10_generated_tree ω fuel showDep hcon hfr d op ws P hP h)

/-- **C21.** And only then: a response key with two named types is listed twice. -/
theorem C21_listed_once_iff (ω : Hash) (fuel : Nat) (showDep : Bool)
    (hcon : Consistent schema) (hfr : FragsValid schema frags) (d : Definition) (op : Operation)
    (ws : List Warning) (P : String) (hP : rootType d = some P)
    (h : Operation.compile ω fuel ⟨schema, showDep, frags⟩ d = some (.ok op, ws)) :
    DistinctPoss op.collection ↔ OneTypePerKey schema frags P [itemsOf d] :=
  ⟨fun hd _ _ hp => oneType_of_distinct hcon hp op.collection
      (C10_generated_tree ω fuel showDep hcon hfr d op ws P hP h) hd,
    C21_properties_listed_once ω fuel showDep hcon hfr d op ws P hP h⟩

/-- **C21.** The properties of each object type are sorted, strictly so under the proviso. -/
theorem C21_properties_sorted (ω : Hash) (fuel : Nat) (showDep : Bool)
    (hcon : Consistent schema) (hfr : FragsValid schema frags) (d : Definition) (op : Operation)
    (ws : List Warning) (P : String) (hP : rootType d = some P)
    (h : Operation.compile ω fuel ⟨schema, showDep, frags⟩ d = some (.ok op, ws))
    (hone : OneTypePerKey schema frags P [itemsOf d])
    {P' : String} {sets' : List (List Selection)} {ps' : List Complex}
    (hb : Below schema frags P [itemsOf d] op.collection P' sets' ps')
    {T : String} {fields : List IRField} (hm : Complex.mk T fields ∈ ps') :
    (fields.map IRField.propName).Pairwise (· < ·) := by
  have ht := C10_generated_tree ω fuel showDep hcon hfr d op ws P hP h
  obtain ⟨hd', ht'⟩ := tree_below hb (distinct_of_oneType _ _ _ _ le_rfl hone ht) ht
  obtain ⟨L, _, hsort, _⟩ := (ht' 1).2.2 T fields hm
  have hn := (mem_distinctPoss hd' hm).1
  rw [List.pairwise_map]
  have := List.Pairwise.and hsort (List.pairwise_map.1 hn)
  refine this.imp ?_
  rintro a b ⟨h1, h2⟩
  by_contra hlt
  exact h2 (str_le_antisymm h1 (String.not_lt.1 hlt))

/-! ### Examples -/

mutual
/-- Decidable reading of `DistinctType`. -/
def distinctTypeB : IRType → Bool
  | .complex ps => distinctPossB ps
  | _ => true
/-- Decidable reading of `DistinctPoss`. -/
def distinctPossB : List Complex → Bool
  | [] => true
  | c :: cs => distinctComplexB c && distinctPossB cs
/-- Decidable reading of `DistinctComplex`. -/
def distinctComplexB : Complex → Bool
  | .mk _ fields => decide (fields.map IRField.propName).Nodup && distinctFieldsB fields
/-- Decidable reading of `DistinctFields`. -/
def distinctFieldsB : List IRField → Bool
  | [] => true
  | f :: fs => distinctFieldB f && distinctFieldsB fs
/-- Decidable reading of `DistinctField`. -/
def distinctFieldB : IRField → Bool
  | .mk _ _ _ _ _ ty => distinctTypeB ty
end

mutual
theorem distinctType_iff : ∀ t, distinctTypeB t = true ↔ DistinctType t
  | .complex ps => by unfold distinctTypeB DistinctType; exact distinctPoss_iff ps
  | .typeName => by unfold distinctTypeB DistinctType; simp
  | .enum _ => by unfold distinctTypeB DistinctType; simp
  | .scalar _ => by unfold distinctTypeB DistinctType; simp
theorem distinctPoss_iff : ∀ ps, distinctPossB ps = true ↔ DistinctPoss ps
  | [] => by unfold distinctPossB DistinctPoss; simp
  | c :: cs => by
    unfold distinctPossB DistinctPoss
    rw [Bool.and_eq_true, distinctComplex_iff c, distinctPoss_iff cs]
theorem distinctComplex_iff : ∀ c, distinctComplexB c = true ↔ DistinctComplex c
  | .mk _ fields => by
    unfold distinctComplexB DistinctComplex
    rw [Bool.and_eq_true, decide_eq_true_iff, distinctFields_iff fields]
theorem distinctFields_iff : ∀ fs, distinctFieldsB fs = true ↔ DistinctFields fs
  | [] => by unfold distinctFieldsB DistinctFields; simp
  | f :: fs => by
    unfold distinctFieldsB DistinctFields
    rw [Bool.and_eq_true, distinctField_iff f, distinctFields_iff fs]
theorem distinctField_iff : ∀ f, distinctFieldB f = true ↔ DistinctField f
  | .mk _ _ _ _ _ ty => by unfold distinctFieldB DistinctField; exact distinctType_iff ty
end

/-- A successful compile without repeated properties. -/
def compiledDistinct (r : Option (Except (List IrError) Operation × List Warning)) : Bool :=
  match r with
  | some (.ok op, _) => distinctPossB op.collection
  | _ => false

theorem compiledDistinct_iff {r : Option (Except (List IrError) Operation × List Warning)} :
    compiledDistinct r = true ↔ ∃ op ws, r = some (.ok op, ws) ∧ DistinctPoss op.collection := by
  unfold compiledDistinct
  split
  · rw [distinctPoss_iff]; simp
  · rename_i h
    simp only [Bool.false_eq_true, false_iff]
    rintro ⟨op, ws, rfl, _⟩
    exact h op ws rfl

theorem demo_frags_valid : FragsValid Demo.schema Demo.ctx.fragments := by
  intro name fd h
  have : fd = Demo.fragF := by
    unfold Demo.ctx at h
    simp only [AMap.get?] at h
    split at h
    · injection h with e; exact e.symm
    · simp at h
  subst this
  refine ⟨by decide +kernel, (valid_iff _ _).2 ?_⟩
  have : (invalidSelections Demo.schema Demo.ctx.fragments Demo.fragF.typeCond
    Demo.fragF.items).length = 0 := by decide +kernel
  exact List.length_eq_zero_iff.1 this

/-- The demo query meets all hypotheses used above. -/
theorem demo_unambiguous : ∃ op ws, Operation.compile .inOrder 5 Demo.ctx Demo.query = some (.ok op, ws) ∧
    OneTypePerKey Demo.schema Demo.ctx.fragments "Query" [itemsOf Demo.query] := by
  obtain ⟨op, ws, h, hd⟩ := compiledDistinct_iff.1
    (show compiledDistinct (Operation.compile .inOrder 5 Demo.ctx Demo.query) = true by decide +kernel)
  exact ⟨op, ws, h, (C21_listed_once_iff .inOrder 5 true demo_consistent demo_frags_valid Demo.query op ws
    "Query" rfl h).1 hd⟩

/-- The shape of the generated tree of the demo query: object types with their property names. -/
def topShape (r : Option (Except (List IrError) Operation × List Warning)) :
    List (String × List String) :=
  match r with
  | some (.ok op, _) => op.collection.map (fun c => (c.name, c.fields.map IRField.propName))
  | _ => []

/-- The same one level down, below one property. -/
def subShape (key : String) (r : Option (Except (List IrError) Operation × List Warning)) :
    List (String × List String) :=
  match r with
  | some (.ok op, _) => op.collection.flatMap (fun c => c.fields.flatMap (fun f =>
      if f.propName = key then
        match f.type with
        | .complex ps => ps.map (fun c => (c.name, c.fields.map IRField.propName))
        | _ => []
      else []))
  | _ => []

example : topShape (Operation.compile .inOrder 5 Demo.ctx Demo.query) = [("Query", ["me", "node"])] := by
  decide +kernel

example : subShape "node" (Operation.compile .reversed 5 Demo.ctx Demo.query) =
    [("Bot", ["__typename", "id", "name"]), ("User", ["__typename", "id", "name", "old", "role"])] := by
  decide +kernel

/-- **C21, violated.** With a narrowed field type, valid GraphQL makes the generated object type list
`owner` twice. -/
theorem C21_narrowed_field_listed_twice :
    subShape "node" (Operation.compile .inOrder 5 ⟨Demo.covSchema, true, []⟩ Demo.covQuery) =
      [("User", ["owner", "owner"])] := by decide +kernel

theorem cov_consistent : Consistent Demo.covSchema := consistent_of_check (by decide +kernel)

theorem frags_nil_valid (schema : Schema) : FragsValid schema [] := by
  intro name fd h; simp [AMap.get?] at h

/-- The hypotheses of `C21_listed_once_iff` are met by this query as well; it is ambiguous. -/
example : ¬ OneTypePerKey Demo.covSchema [] "Query" [itemsOf Demo.covQuery] := by
  obtain ⟨op, ws, h⟩ := compiledOk_iff.1 (show compiledOk (Operation.compile .inOrder 5
    ⟨Demo.covSchema, true, []⟩ Demo.covQuery) = true by decide +kernel)
  intro hone
  have hd := C21_properties_listed_once .inOrder 5 true cov_consistent (frags_nil_valid _) Demo.covQuery
    op ws "Query" rfl h hone
  have hb : compiledDistinct (Operation.compile .inOrder 5 ⟨Demo.covSchema, true, []⟩ Demo.covQuery) = true :=
    compiledDistinct_iff.2 ⟨op, ws, h, hd⟩
  have : compiledDistinct (Operation.compile .inOrder 5 ⟨Demo.covSchema, true, []⟩ Demo.covQuery) = false := by
    decide +kernel
  rw [this] at hb
  exact Bool.noConfusion hb

/-! ### C12 -/

/-- **C12.** Spreading a valid imported fragment contributes all of its fields: at every depth, for every
object type of the position that the fragment applies to, each response key that the fragment's own
selections yield for that object type is a generated property. -/
theorem C12_valid_fragment_contributes (ω : Hash) (fuel : Nat) (showDep : Bool)
    (hcon : Consistent schema) (hfr : FragsValid schema frags) (d : Definition) (op : Operation)
    (ws : List Warning) (P : String) (hP : rootType d = some P)
    (h : Operation.compile ω fuel ⟨schema, showDep, frags⟩ d = some (.ok op, ws))
    (hone : OneTypePerKey schema frags P [itemsOf d])
    {P' : String} {sets' : List (List Selection)} {ps' : List Complex}
    (hb : Below schema frags P [itemsOf d] op.collection P' sets' ps')
    {T : String} {fields : List IRField} (hm : Complex.mk T fields ∈ ps')
    {items : List Selection} (hi : items ∈ sets') {pos : Pos} {name : String} {dirs : List Directive}
    (hs : .spread pos name dirs ∈ items) {fd : FragmentDef} (hfd : AMap.get? frags name = some fd)
    (hT : T ∈ possibleTypes schema fd.typeCond) {L₁ : List Contribution}
    (hL₁ : Coll schema frags T fd.typeCond fd.items L₁) :
    ∀ c ∈ L₁, c.key ∈ fields.map IRField.propName := by
  obtain ⟨L, ⟨Ls, hLs, e⟩, hk⟩ :=
    C10_properties_are_response_keys ω fuel showDep hcon hfr d op ws P hP h hone hb hm
  subst e
  intro c hc
  rw [hk]
  obtain ⟨L₂, hL₂, hcoll⟩ := forall₂_mem_left hLs items hi
  refine ⟨c, List.mem_flatten.2 ⟨L₂, hL₂, ?_⟩, rfl⟩
  clear hLs hL₂ hk hi
  generalize hQ : P' = Q at hcoll
  clear hb hQ
  induction hcoll with
  | nil => simp at hs
  | field _ _ ih =>
    rcases List.mem_cons.1 hs with hs | hs
    · exact Selection.noConfusion hs
    · exact List.mem_cons_of_mem _ (ih hs)
  | inlineIn _ _ _ _ ih =>
    rcases List.mem_cons.1 hs with hs | hs
    · exact Selection.noConfusion hs
    · exact List.mem_append_right _ (ih hs)
  | inlineOut _ _ ih =>
    rcases List.mem_cons.1 hs with hs | hs
    · exact Selection.noConfusion hs
    · exact ih hs
  | spreadIn h1 h2 h3 _ _ ih =>
    rcases List.mem_cons.1 hs with hs | hs
    · injection hs with _ e _
      subst e
      rw [hfd] at h1; injection h1 with e; subst e
      rw [coll_functional hL₁ _ h3] at hc
      exact List.mem_append_left _ hc
    · exact List.mem_append_right _ (ih hs)
  | spreadOut h1 h2 _ ih =>
    rcases List.mem_cons.1 hs with hs | hs
    · injection hs with _ e _
      subst e
      rw [hfd] at h1; injection h1 with e; subst e
      exact absurd hT h2
    · exact ih hs

/-- **C12.** Whether the file compiles does not depend on what its imported fragments contain (only on
their names): errors in them are not reported. -/
theorem C12_fragment_errors_not_reported (ω : Hash) (fuel fuel' : Nat) (showDep : Bool)
    (hcon : Consistent schema) {frags' : Frags} (d : Definition)
    (hsame : ∀ name, (AMap.get? frags name).isSome = (AMap.get? frags' name).isSome)
    (r r' : Except (List IrError) Operation) (ws ws' : List Warning)
    (h : Operation.compile ω fuel ⟨schema, showDep, frags⟩ d = some (r, ws))
    (h' : Operation.compile ω fuel' ⟨schema, showDep, frags'⟩ d = some (r', ws')) :
    (∃ op, r = .ok op) ↔ ∃ op, r' = .ok op := by
  rw [C07_compiles_iff_valid ω fuel showDep hcon d r ws h,
    C07_compiles_iff_valid ω fuel' showDep hcon d r' ws' h']
  have hv : ∀ P, Valid schema frags P (itemsOf d) ↔ Valid schema frags' P (itemsOf d) := by
    intro P
    have hsel : ∀ P' sel, SelOk schema frags P' sel ↔ SelOk schema frags' P' sel := by
      intro P' sel
      cases sel with
      | field => exact Iff.rfl
      | «inline» => exact Iff.rfl
      | spread pos name dirs =>
        show (∃ fd, AMap.get? frags name = some fd) ↔ ∃ fd, AMap.get? frags' name = some fd
        rw [← Option.isSome_iff_exists, ← Option.isSome_iff_exists, hsame]
    unfold Valid
    simp only [hsel]
  simp only [hv]

/-- **C12.** An imported fragment with an error that is not inside one of its inline fragments is dropped
silently: the result is the same as if the fragment had no selections at all. -/
theorem C12_invalid_fragment_dropped (ω ω' : Hash) (fuel fuel' : Nat) (showDep : Bool)
    (hcon : Consistent schema) (d : Definition) (name : String) (fd : FragmentDef)
    (hfd : AMap.get? frags name = some fd) {P' : String} {sel : Selection}
    (hexp : Exposed schema fd.typeCond fd.items P' sel) (hbad : ¬ SelOk schema frags P' sel)
    (hcond : ¬ HasCondition sel) (op op' : Operation) (ws ws' : List Warning)
    (h : Operation.compile ω fuel ⟨schema, showDep, frags⟩ d = some (.ok op, ws))
    (h' : Operation.compile ω' fuel' ⟨schema, showDep,
      AMap.insert frags name { fd with items := [] }⟩ d = some (.ok op', ws'))
    (hd : DistinctPoss op.collection) : op = op' := by
  have hsu : SameUse schema frags (AMap.insert frags name { fd with items := [] }) := by
    intro x
    rw [AMap.get?_insert]
    by_cases hx : x = name
    · subst hx
      right
      exact ⟨fd, { fd with items := [] }, hfd, by simp, rfl, rfl,
        check_false_nil_of_exposed hcon hexp hbad hcond⟩
    · left
      rw [if_neg (fun h => hx h.symm)]
  cases hP : rootType d with
  | none =>
    cases d with
    | selectionSet pos items => simp [Operation.compile] at h
    | operation kw pos name vars dirs items => cases kw <;> simp [rootType] at hP
    | fragment f => simp [rootType] at hP
  | some P =>
    obtain ⟨_, _, ht, hf⟩ := compiled_tree hcon hP h
    obtain ⟨_, _, ht', hf'⟩ := compiled_tree hcon hP h'
    have hc : op.collection = op'.collection :=
      tree_unique collectorX_functional _ P _ _ _ le_rfl hd (treeX_sameUse hsu _ _ _ _ (ht _)) (ht' _)
    rw [hc, hf'] at hf
    injection hf with hf
    exact hf.symm

/-- The demo query with `F` replaced by an invalid fragment: it compiles, and `name` is gone. -/
def Demo.brokenCtx : Ctx := ⟨Demo.schema, true,
  [("F", ⟨⟨1, 1⟩, "F", "Node", [], [Demo.leaf 1 20 "name", Demo.leaf 1 30 "nope"]⟩)]⟩

example : subShape "node" (Operation.compile .inOrder 5 Demo.brokenCtx Demo.query) =
    [("Bot", ["__typename", "id"]), ("User", ["__typename", "id", "old", "role"])] := by decide +kernel

example : compiledDistinct (Operation.compile .inOrder 5 Demo.brokenCtx Demo.query) = true := by
  decide +kernel

example : ∃ P' sel, Exposed Demo.schema "Node" [Demo.leaf 1 20 "name", Demo.leaf 1 30 "nope"] P' sel ∧
    ¬ SelOk Demo.schema [] P' sel ∧ ¬ HasCondition sel := by
  refine ⟨"Node", Demo.leaf 1 30 "nope", .here (by simp), ?_, fun h => h⟩
  rintro ⟨f, hf, _⟩
  have : (fieldOf Demo.schema "Node" "nope").isSome = false := by decide +kernel
  rw [hf] at this
  simp at this

end Qlc
