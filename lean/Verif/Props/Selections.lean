import Verif.Lemmas.IRTerm
import Verif.Props.Types
import Verif.Spec.Demo
/-
Properties C07, C08, C13, C14, C15: validity, reported errors, termination and warnings of compiling the
selections of a definition.
-/
set_option autoImplicit false

namespace Qlc
open Spec

/-! ### The demo schema is consistent -/

/-- A decidable reading of `Consistent` for concrete schemas: check every field that is listed. -/
def consistentCheck (schema : Schema) : Bool :=
  schema.all (fun e =>
    ((fieldsOf schema e.1).getD []).all (fun p =>
      decide (p.2.type.definition ≠ .inputObject) &&
      (p.2.type.definition.isComplex == (fieldsOf schema p.2.type.name).isSome)))

theorem consistent_of_check {schema : Schema} (h : consistentCheck schema = true) :
    Consistent schema := by
  intro P name f hf
  unfold fieldOf at hf
  cases hP : fieldsOf schema P with
  | none => rw [hP] at hf; simp at hf
  | some fl =>
    rw [hP] at hf
    have hmem : (name, f) ∈ fl := AMap.mem_of_get? hf
    have hPs : ∃ t, schema.getType P = some t := by
      unfold fieldsOf at hP
      cases ht : schema.getType P with
      | none => rw [ht] at hP; simp at hP
      | some t => exact ⟨t, rfl⟩
    obtain ⟨t, ht⟩ := hPs
    have hin : (P, t) ∈ schema := AMap.mem_of_get? ht
    unfold consistentCheck at h
    have h1 := List.all_eq_true.1 h _ hin
    simp only [hP, Option.getD_some] at h1
    have h2 := List.all_eq_true.1 h1 _ hmem
    simp only [Bool.and_eq_true, decide_eq_true_eq, beq_iff_eq] at h2
    refine ⟨h2.1, ?_⟩
    unfold IsComposite
    rw [h2.2]

theorem demo_consistent : Consistent Demo.schema :=
  consistent_of_check (by decide +kernel)

/-- Does a compile result hold an operation? -/
def compiledOk (r : Option (Except (List IrError) Operation × List Warning)) : Bool :=
  match r with
  | some (.ok _, _) => true
  | _ => false

theorem compiledOk_iff {r : Option (Except (List IrError) Operation × List Warning)} :
    compiledOk r = true ↔ ∃ op ws, r = some (.ok op, ws) := by
  unfold compiledOk
  split <;> simp_all

theorem demo_compiles :
    ∃ op ws, Operation.compile .inOrder 5 Demo.ctx Demo.query = some (.ok op, ws) :=
  compiledOk_iff.1 (by decide +kernel)

variable {schema : Schema} {frags : Frags}

/-! ### C07 -/

theorem seqE_map_ok_iff {ε α β : Type} (f : α → Except ε β) (l : List α) :
    (∃ bs, seqE (l.map f) = .ok bs) ↔ ∀ a ∈ l, ∃ b, f a = .ok b := by
  induction l with
  | nil => simp [seqE]
  | cons a l ih =>
    simp only [List.map_cons, List.forall_mem_cons, ← ih]
    cases f a with
    | error e => simp [seqE]
    | ok b =>
      simp only [seqE]
      cases seqE (l.map f) <;> simp

theorem variables_ok_iff (schema : Schema) (vars : List VarDef) :
    (∃ vs, tryBuildVariableIr schema vars = .ok vs) ↔
      ∀ v ∈ vars, SupportedVarType v.type ∧ KnownTypeName schema (baseName v.type) := by
  have h : (∃ vs, tryBuildVariableIr schema vars = .ok vs) ↔
      ∃ vs, seqE (vars.map (buildVariable schema)) = .ok vs := by
    unfold tryBuildVariableIr
    cases vars with
    | nil => simp [seqE]
    | cons v vars =>
      simp only [List.isEmpty_cons, Bool.false_eq_true, if_false]
      cases seqE ((v :: vars).map (buildVariable schema)) <;> simp
  rw [h, seqE_map_ok_iff]
  constructor
  · intro h v hv
    exact (C03_variable_accepted_iff schema v).1 (h v hv)
  · intro h v hv
    exact (C03_variable_accepted_iff schema v).2 (h v hv)

/-- **C07.** If compiling a definition returns, it succeeds exactly if the definition selects on an
existing composite type, every selection written in it is valid, and its variables have supported, known
types.  (An operation without keyword is never accepted.) -/
theorem C07_compiles_iff_valid (ω : Hash) (fuel : Nat) (showDep : Bool) (hcon : Consistent schema)
    (d : Definition) (r : Except (List IrError) Operation) (ws : List Warning)
    (h : Operation.compile ω fuel ⟨schema, showDep, frags⟩ d = some (r, ws)) :
    (∃ op, r = .ok op) ↔
      ∃ P, rootType d = some P ∧ IsComposite schema P ∧ Valid schema frags P (itemsOf d) ∧
        ∀ v ∈ varsOf d, SupportedVarType v.type ∧ KnownTypeName schema (baseName v.type) := by
  cases hP : rootType d with
  | none =>
    cases d with
    | selectionSet pos items =>
      simp only [Operation.compile, Option.some.injEq, Prod.mk.injEq] at h
      rw [← h.1]; simp
    | operation kw pos name vars dirs items => cases kw <;> simp [rootType] at hP
    | fragment f => simp [rootType] at hP
  | some P =>
    simp only [Option.some.injEq, exists_eq_left']
    rcases compile_spec ω fuel showDep hcon d r ws P hP h with
      ⟨h1, ⟨pos, _, h2⟩, _⟩ | ⟨h1, es, h2, _, h4, h5⟩
    · constructor
      · rintro ⟨op, rfl⟩; simp at h2
      · intro h'; exact absurd h'.1 h1
    · simp only [h1, true_and]
      rw [← variables_ok_iff, ← check_nil_iff hcon, ← h2.1]
      simp only [List.map_eq_nil_iff]
      by_cases he : es = []
      · obtain ⟨coll, _, hr⟩ := h5 he
        rw [hr]
        simp only [he, true_and, finish]
        cases tryBuildVariableIr schema (varsOf d) <;> simp
      · rw [h4 he]
        simp [he]

/-- The demo query compiles, so it meets the right-hand side. -/
example : ∃ P, rootType Demo.query = some P ∧ IsComposite Demo.schema P ∧
    Valid Demo.schema Demo.ctx.fragments P (itemsOf Demo.query) ∧
    ∀ v ∈ varsOf Demo.query, SupportedVarType v.type ∧ KnownTypeName Demo.schema (baseName v.type) := by
  obtain ⟨op, ws, h⟩ := demo_compiles
  exact (C07_compiles_iff_valid .inOrder 5 true demo_consistent Demo.query (.ok op) ws h).1 ⟨op, rfl⟩

/-! ### C08 -/

/-- **C08.** If some selection is invalid, the reported errors correspond one to one, in document order, to
the invalid selections, and each says what is wrong with its selection and where. -/
theorem C08_all_invalid_selections_reported (ω : Hash) (fuel : Nat) (showDep : Bool)
    (hcon : Consistent schema) (d : Definition) (r : Except (List IrError) Operation)
    (ws : List Warning) (P : String) (hP : rootType d = some P) (hcomp : IsComposite schema P)
    (h : Operation.compile ω fuel ⟨schema, showDep, frags⟩ d = some (r, ws))
    (hinv : ¬ Valid schema frags P (itemsOf d)) :
    ∃ es, r = .error es ∧
      List.Forall₂ (fun (x : String × Selection) e => Reports schema frags x.1 x.2 e)
        (invalidSelections schema frags P (itemsOf d)) es := by
  rcases compile_spec ω fuel showDep hcon d r ws P hP h with ⟨h1, _⟩ | ⟨_, es, h2, _, h4, _⟩
  · exact absurd hcomp h1
  · have hne : es ≠ [] := by
      rintro rfl
      exact hinv ((check_nil_iff hcon P _).1 (by simpa using h2.1.symm))
    exact ⟨es, h4 hne, errs_report hcon h2⟩

/-- **C08.** The list used above contains exactly the invalid selections that are reached without passing
through another invalid selection. -/
theorem C08_listed_iff_invalid (P : String) (items : List Selection) (P' : String) (sel : Selection) :
    (P', sel) ∈ invalidSelections schema frags P items ↔
      ∃ N', Occurs schema P (possibleTypes schema P) items P' N' sel ∧ ¬ SelOk schema frags P' sel :=
  mem_invalid_iff P _ items P' sel

/-- **C08.** Hence every invalid selection that can be reached has its error reported, and every reported
error is about an invalid selection of the file. -/
theorem C08_errors_are_the_invalid_selections (ω : Hash) (fuel : Nat) (showDep : Bool)
    (hcon : Consistent schema) (d : Definition) (r : Except (List IrError) Operation)
    (ws : List Warning) (P : String) (hP : rootType d = some P) (hcomp : IsComposite schema P)
    (h : Operation.compile ω fuel ⟨schema, showDep, frags⟩ d = some (r, ws))
    (hinv : ¬ Valid schema frags P (itemsOf d)) :
    ∃ es, r = .error es ∧
      (∀ P' N' sel, Occurs schema P (possibleTypes schema P) (itemsOf d) P' N' sel →
        ¬ SelOk schema frags P' sel → ∃ e ∈ es, Reports schema frags P' sel e) ∧
      (∀ e ∈ es, ∃ P' N' sel, Occurs schema P (possibleTypes schema P) (itemsOf d) P' N' sel ∧
        ¬ SelOk schema frags P' sel ∧ Reports schema frags P' sel e) := by
  obtain ⟨es, hr, hF⟩ := C08_all_invalid_selections_reported ω fuel showDep hcon d r ws P hP hcomp h hinv
  refine ⟨es, hr, ?_, ?_⟩
  · intro P' N' sel ho hbad
    obtain ⟨e, he, hR⟩ := forall₂_mem_left hF _ (invalid_complete ho hbad)
    exact ⟨e, he, hR⟩
  · intro e he
    obtain ⟨⟨P', sel⟩, hx, hR⟩ := forall₂_mem hF e he
    obtain ⟨N', ho, hbad⟩ := (C08_listed_iff_invalid P _ P' sel).1 hx
    exact ⟨P', N', sel, ho, hbad, hR⟩

/-- A query with four invalid selections, one of them nested. -/
def Demo.badQuery : Definition := .operation .query ⟨1, 1⟩ none [] []
  [Demo.leaf 2 1 "nope", Demo.leaf 3 1 "viewer",
   .field ⟨4, 1⟩ none "viewer" [] [] [Demo.leaf 5 1 "id", .spread ⟨6, 1⟩ "X" []],
   .inline ⟨7, 1⟩ none [] []]

/-- All four are reported. -/
example : (Operation.compile .inOrder 5 Demo.ctx Demo.badQuery).map
    (fun x => match x.1 with | .ok _ => [] | .error es => es.map errorPos) =
    some [some ⟨2, 1⟩, some ⟨3, 1⟩, some ⟨6, 1⟩, some ⟨7, 1⟩] := by decide +kernel

example : ¬ Valid Demo.schema Demo.ctx.fragments "Query" (itemsOf Demo.badQuery) := by
  intro h
  obtain ⟨f, hf, _⟩ := h "Query" _ (Demo.leaf 2 1 "nope") (.here (by simp [itemsOf, Demo.badQuery]))
  have : fieldOf Demo.schema "Query" "nope" = none := rfl
  rw [this] at hf
  simp at hf

/-! ### C13 -/

/-- **C13.** Compiling a definition returns (for some amount of time) exactly if there is no infinite chain
of selection sets, each entered from the one before. -/
theorem C13_terminates_iff (ω : Hash) (showDep : Bool) (hcon : Consistent schema) (d : Definition)
    (P : String) (hP : rootType d = some P) (hcomp : IsComposite schema P) :
    (∃ fuel, (Operation.compile ω fuel ⟨schema, showDep, frags⟩ d).isSome = true) ↔
      ¬ InfiniteChain schema frags P (itemsOf d) := by
  rw [← acc_iff_no_chain, ← exists_fits_iff]
  have hiff : ∀ fuel, (Operation.compile ω fuel ⟨schema, showDep, frags⟩ d).isSome = true ↔
      Fits schema frags fuel (P, itemsOf d) := by
    intro fuel
    have h := compile_none_iff (frags := frags) ω fuel showDep hcon d
    simp only [hP, Option.some.injEq, exists_eq_left', hcomp, true_and] at h
    rw [← Option.isNone_iff_eq_none] at h
    cases hc : Operation.compile ω fuel ⟨schema, showDep, frags⟩ d with
    | none => rw [hc] at h; simpa using h
    | some x => rw [hc] at h; simpa using h
  exact exists_congr hiff

/-- **C13.** More time does not hurt, and the hash order plays no role. -/
theorem C13_enough_fuel (ω ω' : Hash) (showDep showDep' : Bool) (hcon : Consistent schema)
    (d : Definition) (n m : Nat) (hnm : n ≤ m)
    (h : (Operation.compile ω n ⟨schema, showDep, frags⟩ d).isSome = true) :
    (Operation.compile ω' m ⟨schema, showDep', frags⟩ d).isSome = true := by
  rw [Option.isSome_iff_ne_none] at h ⊢
  rw [Ne, compile_none_iff ω n showDep hcon d] at h
  rw [Ne, compile_none_iff ω' m showDep' hcon d]
  rintro ⟨P, h1, h2, h3⟩
  exact h ⟨P, h1, h2, fun hf => h3 (hf.mono hnm)⟩

theorem mem_spreadsSels {s : Selection} {items : List Selection} (hs : s ∈ items) {x : String}
    (hx : x ∈ spreadsSel s) : x ∈ spreadsSels items := by
  induction items with
  | nil => simp at hs
  | cons t items ih =>
    unfold spreadsSels
    rcases List.mem_cons.1 hs with rfl | hs
    · exact List.mem_append_left _ hx
    · exact List.mem_append_right _ (ih hs)

/-- **C13.** In particular compiling returns whenever imported fragments do not spread each other in an
infinite chain. -/
theorem C13_acyclic_fragments_terminate (ω : Hash) (showDep : Bool) (hcon : Consistent schema)
    (d : Definition) (hac : FragmentsAcyclic frags) :
    ∃ fuel, (Operation.compile ω fuel ⟨schema, showDep, frags⟩ d).isSome = true := by
  -- every fragment name is accessible
  have hname : ∀ a, Acc (fun b a => ∃ fd, AMap.get? frags a = some fd ∧ b ∈ spreadsSels fd.items) a := by
    intro a
    by_contra hna
    rw [not_acc_iff_exists_descending_chain] at hna
    obtain ⟨c, _, hc⟩ := hna
    exact hac ⟨c, hc⟩
  -- a selection set is accessible if the fragments it spreads are
  have hset : ∀ (k : Nat) (P : String) (items : List Selection), sizeOf items ≤ k →
      (∀ x ∈ spreadsSels items, ∀ fd, AMap.get? frags x = some fd →
        Acc (fun b a => Enters schema frags a b) (fd.typeCond, fd.items)) →
      Acc (fun b a => Enters schema frags a b) (P, items) := by
    intro k
    induction k with
    | zero => intro P items hk; cases items <;> simp at hk
    | succ k ih =>
      intro P items hk hsp
      refine .intro _ ?_
      intro y hy
      cases hy with
      | field h1 h2 h3 h4 =>
        refine ih _ _ ?_ ?_
        · have := List.sizeOf_lt_of_mem h1
          simp only [Selection.field.sizeOf_spec] at this
          omega
        · intro x hx
          exact hsp x (mem_spreadsSels h1 (by unfold spreadsSel; exact hx))
      | «inline» h1 h2 =>
        refine ih _ _ ?_ ?_
        · have := List.sizeOf_lt_of_mem h1
          simp only [Selection.inline.sizeOf_spec] at this
          omega
        · intro x hx
          exact hsp x (mem_spreadsSels h1 (by unfold spreadsSel; exact hx))
      | spread h1 h2 h3 =>
        exact hsp _ (mem_spreadsSels h1 (by unfold spreadsSel; exact List.mem_singleton_self _)) _ h2
  have hfrag : ∀ a fd, AMap.get? frags a = some fd →
      Acc (fun b a => Enters schema frags a b) (fd.typeCond, fd.items) := by
    intro a
    induction hname a with
    | intro a _ ih =>
      intro fd hfd
      exact hset _ _ _ le_rfl (fun x hx fd' hfd' => ih x ⟨fd, hfd, hx⟩ fd' hfd')
  cases hP : rootType d with
  | none =>
    refine ⟨0, ?_⟩
    rw [Option.isSome_iff_ne_none, Ne, compile_none_iff ω 0 showDep hcon d]
    simp [hP]
  | some P =>
    by_cases hcomp : IsComposite schema P
    · rw [C13_terminates_iff ω showDep hcon d P hP hcomp, ← acc_iff_no_chain]
      exact hset _ _ _ le_rfl (fun x _ fd hfd => hfrag x fd hfd)
    · refine ⟨0, ?_⟩
      rw [Option.isSome_iff_ne_none, Ne, compile_none_iff ω 0 showDep hcon d]
      rintro ⟨P', h1, h2, _⟩
      rw [hP] at h1
      injection h1 with e
      exact hcomp (e ▸ h2)

/-- **C13.** A document that spreads an imported fragment which spreads itself never compiles. -/
theorem C13_self_spreading_fragment_diverges (ω : Hash) (showDep : Bool) (hcon : Consistent schema)
    (d : Definition) (P : String) (hP : rootType d = some P) (hcomp : IsComposite schema P)
    (name : String) (fd : FragmentDef) (pos pos' : Pos) (dirs dirs' : List Directive)
    (hfd : AMap.get? frags name = some fd) (hfc : IsComposite schema fd.typeCond)
    (hself : .spread pos name dirs ∈ fd.items) (huse : .spread pos' name dirs' ∈ itemsOf d)
    (fuel : Nat) : Operation.compile ω fuel ⟨schema, showDep, frags⟩ d = none := by
  have hch : InfiniteChain schema frags P (itemsOf d) := by
    refine ⟨fun n => match n with | 0 => (P, itemsOf d) | _ + 1 => (fd.typeCond, fd.items), rfl, ?_⟩
    intro n
    cases n with
    | zero => exact .spread huse hfd hfc
    | succ n => exact .spread hself hfd hfc
  by_contra hne
  exact (C13_terminates_iff ω showDep hcon d P hP hcomp).1
    ⟨fuel, Option.isSome_iff_ne_none.2 hne⟩ hch

/-- The demo fragments are acyclic. -/
example : FragmentsAcyclic Demo.ctx.fragments := by
  rintro ⟨c, hc⟩
  obtain ⟨fd, h1, h2⟩ := hc 0
  have : fd = Demo.fragF := by
    unfold Demo.ctx at h1
    simp only [AMap.get?] at h1
    split at h1
    · injection h1 with e; exact e.symm
    · simp at h1
  subst this
  have : spreadsSels Demo.fragF.items = [] := rfl
  rw [this] at h2
  simp at h2

/-- `fragment R on User { id ...R }` imported by `query { viewer { ...R } }`: never returns. -/
example (ω : Hash) (fuel : Nat) : Operation.compile ω fuel
    ⟨Demo.schema, true, [("R", ⟨⟨1, 1⟩, "R", "Query", [], [Demo.leaf 1 2 "count", .spread ⟨1, 3⟩ "R" []]⟩)]⟩
    (.operation .query ⟨1, 1⟩ none [] [] [.spread ⟨2, 1⟩ "R" []]) = none :=
  C13_self_spreading_fragment_diverges ω true demo_consistent _ "Query" rfl (by decide +kernel) "R" _ ⟨1, 3⟩ ⟨2, 1⟩ [] []
    rfl (by decide +kernel) (by simp) (by simp [itemsOf]) fuel

/-! ### Fields of input object type -/

theorem new_of_fieldOf {schema : Schema} {P name : String} {f : SField} (pos : Pos)
    (h : fieldOf schema P name = some f) :
    ∃ c, CTrav.new schema P pos = .ok c ∧ AMap.get? c.lookup name = some f := by
  unfold fieldOf fieldsOf at h
  unfold CTrav.new
  cases ht : schema.getType P with
  | none => rw [ht] at h; simp at h
  | some t =>
    rw [ht] at h
    simp only at h ⊢
    cases hd : t.definition <;> rw [hd] at h <;> simp_all [CTrav.lookup]

/-- **C07, outside consistent schemas.** A schema may give an input object as the type of a field, against the
GraphQL specification.  A query for such a field does not compile: without sub-selections they are asked for,
and with sub-selections the type is reported as one that cannot be selected on. -/
theorem C07_input_object_field_rejected {schema : Schema} {frags : Frags} (ω : Hash) (fuel : Nat) (showDep : Bool)
    (kw : OpKeyword) (pos p : Pos) (opName : Option String) (vars : List VarDef) (dirs dirs' : List Directive)
    (alias' : Option String) (name : String) (args : List (String × Value)) (items : List Selection) (f : SField)
    (hf : fieldOf schema (opNames kw).1 name = some f) (hi : f.type.definition = .inputObject) :
    (items = [] → Operation.compile ω (fuel + 1) ⟨schema, showDep, frags⟩
        (.operation kw pos opName vars dirs [.field p alias' name args dirs' items]) =
      some (.error [.missingSelectionSetOnType f.type.name p], [])) ∧
    (items ≠ [] → ∀ t n fields, schema.getType f.type.name = some t → t.definition = .inputObject n fields →
      Operation.compile ω (fuel + 1) ⟨schema, showDep, frags⟩
        (.operation kw pos opName vars dirs [.field p alias' name args dirs' items]) =
      some (.error [.unexpectedComplexTraversal f.type.name], [])) := by
  obtain ⟨c, hc, hl⟩ := new_of_fieldOf pos hf
  have hx : f.type.definition.isComplex = true := by rw [hi]; rfl
  constructor
  · rintro rfl
    simp [Operation.compile, hc, collect, collectLoop, collectOne, insertField, hl, hx]
  · intro hne t n fields ht hd
    have hn : CTrav.new schema f.type.name p = .error (.unexpectedComplexTraversal f.type.name) := by
      unfold CTrav.new
      rw [ht]
      simp only [hd]
    have he : items.isEmpty = false := by cases items with | nil => exact absurd rfl hne | cons => rfl
    simp [Operation.compile, hc, collect, collectLoop, collectOne, insertField, hl, hx, he, hn]

/-- `type Query { bad: Filter }` with `input Filter`. -/
def Demo.badSchema : Schema :=
  match Schema.ofJson ⟨[⟨"OBJECT", "Query", none, none, none, some [Demo.fld "bad" (Demo.t "INPUT_OBJECT" "Filter")], none⟩,
    ⟨"INPUT_OBJECT", "Filter", none, none, some [Demo.fld "n" (Demo.t "SCALAR" "Int")], none, none⟩]⟩ with
  | .ok s => s
  | .error _ => []

/-- `{ bad }` and `{ bad { n } }` in that schema. -/
example (ω : Hash) : ∃ f, fieldOf Demo.badSchema "Query" "bad" = some f ∧ f.type.definition = .inputObject ∧
    Operation.compile ω 1 ⟨Demo.badSchema, true, []⟩ (.operation .query ⟨1, 1⟩ none [] [] [Demo.leaf 1 9 "bad"]) =
      some (.error [.missingSelectionSetOnType "Filter" ⟨1, 9⟩], []) ∧
    Operation.compile ω 1 ⟨Demo.badSchema, true, []⟩ (.operation .query ⟨1, 1⟩ none [] []
      [.field ⟨1, 9⟩ none "bad" [] [] [Demo.leaf 1 15 "n"]]) =
      some (.error [.unexpectedComplexTraversal "Filter"], []) := by
  have h : ((fieldOf Demo.badSchema "Query" "bad").map (fun f => (f.type.definition, f.type.name))) =
      some (.inputObject, "Filter") := by decide +kernel
  obtain ⟨f, hf, he⟩ := Option.map_eq_some_iff.1 h
  obtain ⟨h1, h2⟩ := Prod.mk.inj he
  have ht : ((Demo.badSchema.getType "Filter").map (fun t => match t.definition with
      | .inputObject _ _ => true | _ => false)) = some true := by decide +kernel
  obtain ⟨t, ht, hd⟩ := Option.map_eq_some_iff.1 ht
  have key := C07_input_object_field_rejected (schema := Demo.badSchema) (frags := []) ω 0 true .query ⟨1, 1⟩ ⟨1, 9⟩
    none [] [] [] none "bad" []
  refine ⟨f, hf, h1, ?_, ?_⟩
  · rw [← h2]
    exact (key [] f hf h1).1 rfl
  · rw [← h2]
    split at hd
    case h_2 => cases hd
    rename_i n fields hd'
    exact (key _ f hf h1).2 (by simp) t n fields (by rw [h2]; exact ht) hd'

end Qlc
