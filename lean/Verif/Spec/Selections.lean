import Verif.Model.IR
import Mathlib.Data.List.Forall2
/-
Independent vocabulary for selections: what GraphQL means by the fields and possible types of a type,
by a valid selection, and by the fields a selection set collects for an object type.
-/
set_option autoImplicit false

namespace Qlc

/-- Drop what depends on the hash order from a warning. -/
def Warning.norm : Warning → Warning
  | .overFragmentNarrowing p ts C => .overFragmentNarrowing p (sortStr ts) C
  | w => w

/-- Drop what depends on the hash order from an error. -/
def IrError.strip : IrError → IrError
  | .unknownFragment n p _ => .unknownFragment n p []
  | .unknownField t f p _ => .unknownField t f p []
  | e => e

end Qlc

namespace Qlc.Spec

/-- The fields that can be selected on a type: objects, interfaces and unions only. -/
def fieldsOf (schema : Schema) (P : String) : Option FieldsLookup :=
  match schema.getType P with
  | none => none
  | some t =>
    match t.definition with
    | .object fl => some fl
    | .interface _ fl _ => some fl
    | .union _ _ fl => some fl
    | _ => none

/-- The type has sub-selections: it is an object, an interface or a union. -/
def IsComposite (schema : Schema) (P : String) : Prop := (fieldsOf schema P).isSome = true

instance (schema : Schema) (P : String) : Decidable (IsComposite schema P) := by
  unfold IsComposite; infer_instance

/-- One field of a type. -/
def fieldOf (schema : Schema) (P name : String) : Option SField :=
  (fieldsOf schema P).bind (fun fl => AMap.get? fl name)

/-- The object types that a value of the type can have, as the schema lists them. -/
def possibleTypes (schema : Schema) (P : String) : List String :=
  match schema.getType P with
  | none => []
  | some t =>
    match t.definition with
    | .object _ => [P]
    | .interface _ _ ps => ps
    | .union _ ps _ => ps
    | _ => []

/-- The kind noted at a field agrees with the kind of the type it names: fields noted as composite are
exactly those whose type is composite, and no field that can be selected is an input object. -/
def Consistent (schema : Schema) : Prop :=
  ∀ P name f, fieldOf schema P name = some f →
    f.type.definition ≠ .inputObject ∧
    (f.type.definition.isComplex = true ↔ IsComposite schema f.type.name)

/-! ### Validity -/

/-- The imported fragments, by name. -/
abbrev Frags := AMap String FragmentDef

/-- One selection is valid where the static type is `P`: a field exists there and has sub-selections
exactly when its type is composite; an inline fragment names a composite type; a spread names an imported
fragment. -/
def SelOk (schema : Schema) (frags : Frags) (P : String) : Selection → Prop
  | .field _ _ name _ _ items => ∃ f, fieldOf schema P name = some f ∧
      (items ≠ [] ↔ IsComposite schema f.type.name)
  | .inline _ cond _ _ => ∃ C, cond = some C ∧ IsComposite schema C
  | .spread _ name _ => ∃ fd, AMap.get? frags name = some fd

/-- `Occurs schema P N items P' N' sel`: inside the selection set `items`, written where the static type is
`P` and the object types `N` are possible, the selection `sel` is written where the static type is `P'` and
the object types `N'` are possible.  Only fields of a composite type and inline fragments on a composite
type are entered; imported fragments are not. -/
inductive Occurs (schema : Schema) : String → List String → List Selection →
    String → List String → Selection → Prop where
  | here {P : String} {N : List String} {items : List Selection} {sel : Selection} :
      sel ∈ items → Occurs schema P N items P N sel
  | field {P : String} {N : List String} {items : List Selection} {P' : String} {N' : List String}
      {sel : Selection} {pos : Pos} {al : Option String} {name : String}
      {args : List (String × Value)} {dirs : List Directive} {sub : List Selection} {f : SField} :
      .field pos al name args dirs sub ∈ items → fieldOf schema P name = some f →
      IsComposite schema f.type.name →
      Occurs schema f.type.name (possibleTypes schema f.type.name) sub P' N' sel →
      Occurs schema P N items P' N' sel
  | inline {P : String} {N : List String} {items : List Selection} {P' : String} {N' : List String}
      {sel : Selection} {pos : Pos} {C : String} {dirs : List Directive} {sub : List Selection} :
      .inline pos (some C) dirs sub ∈ items → IsComposite schema C →
      Occurs schema C ((possibleTypes schema C).filter (fun T => T ∈ N)) sub P' N' sel →
      Occurs schema P N items P' N' sel

/-- Every selection written in the selection set is valid. -/
def Valid (schema : Schema) (frags : Frags) (P : String) (items : List Selection) : Prop :=
  ∀ P' N' sel, Occurs schema P (possibleTypes schema P) items P' N' sel → SelOk schema frags P' sel

/-- An imported fragment is valid on its own type. -/
def ValidFragment (schema : Schema) (frags : Frags) (fd : FragmentDef) : Prop :=
  IsComposite schema fd.typeCond ∧ Valid schema frags fd.typeCond fd.items

/-- Every imported fragment is valid on its own type. -/
def FragsValid (schema : Schema) (frags : Frags) : Prop :=
  ∀ name fd, AMap.get? frags name = some fd → ValidFragment schema frags fd

/-- `Exposed schema P items P' sel`: inside the selection set `items` on type `P`, the selection `sel` is
written where the static type is `P'`, and no inline fragment surrounds it. -/
inductive Exposed (schema : Schema) : String → List Selection → String → Selection → Prop where
  | here {P : String} {items : List Selection} {sel : Selection} :
      sel ∈ items → Exposed schema P items P sel
  | field {P : String} {items : List Selection} {P' : String} {sel : Selection} {pos : Pos}
      {al : Option String} {name : String} {args : List (String × Value)} {dirs : List Directive}
      {sub : List Selection} {f : SField} :
      .field pos al name args dirs sub ∈ items → fieldOf schema P name = some f →
      IsComposite schema f.type.name → Exposed schema f.type.name sub P' sel →
      Exposed schema P items P' sel

/-- An inline fragment with a type condition. -/
def HasCondition : Selection → Prop
  | .inline _ (some _) _ _ => True
  | _ => False

/-- The error says what is wrong with an invalid selection, and where. -/
inductive Reports (schema : Schema) (frags : Frags) (P : String) : Selection → IrError → Prop where
  | unknownField {pos : Pos} {al : Option String} {name : String} {args : List (String × Value)}
      {dirs : List Directive} {items : List Selection} {fl : FieldsLookup} {names : List String} :
      fieldsOf schema P = some fl → AMap.get? fl name = none → names.Perm (AMap.keys fl) →
      Reports schema frags P (.field pos al name args dirs items) (.unknownField P name pos names)
  | missingSelections {pos : Pos} {al : Option String} {name : String} {args : List (String × Value)}
      {dirs : List Directive} {f : SField} :
      fieldOf schema P name = some f → IsComposite schema f.type.name →
      Reports schema frags P (.field pos al name args dirs [])
        (.missingSelectionSetOnType f.type.name pos)
  | selectionsOnLeaf {pos : Pos} {al : Option String} {name : String} {args : List (String × Value)}
      {dirs : List Directive} {items : List Selection} {f : SField} :
      fieldOf schema P name = some f → ¬ IsComposite schema f.type.name → items ≠ [] →
      Reports schema frags P (.field pos al name args dirs items)
        (.selectionSetOnWrongType f.type.name pos)
  | noCondition {pos : Pos} {dirs : List Directive} {items : List Selection} :
      Reports schema frags P (.inline pos none dirs items) (.missingTypeConditionOnInlineFragment pos)
  | unknownType {pos : Pos} {C : String} {dirs : List Directive} {items : List Selection} :
      schema.getType C = none →
      Reports schema frags P (.inline pos (some C) dirs items) (.missingType C)
  | inputType {pos : Pos} {C : String} {dirs : List Directive} {items : List Selection} {t : SType}
      {n : String} {fl : FieldsLookup} :
      schema.getType C = some t → t.definition = .inputObject n fl →
      Reports schema frags P (.inline pos (some C) dirs items) (.unexpectedComplexTraversal C)
  | enumType {pos : Pos} {C : String} {dirs : List Directive} {items : List Selection} {t : SType}
      {vs : List String} :
      schema.getType C = some t → t.definition = .enum vs →
      Reports schema frags P (.inline pos (some C) dirs items) (.selectionSetOnWrongType C pos)
  | scalarType {pos : Pos} {C : String} {dirs : List Directive} {items : List Selection} {t : SType}
      {n : String} :
      schema.getType C = some t → t.definition = .scalar n →
      Reports schema frags P (.inline pos (some C) dirs items) (.selectionSetOnWrongType C pos)
  | unknownFragment {pos : Pos} {name : String} {dirs : List Directive} {names : List String} :
      AMap.get? frags name = none → names.Perm (AMap.keys frags) →
      Reports schema frags P (.spread pos name dirs) (.unknownFragment name pos names)

mutual
/-- The invalid selections below one selection, each with its static type. -/
def invalidSel (schema : Schema) (frags : Frags) (P : String) : Selection → List (String × Selection)
  | .field pos al name args dirs items =>
    match fieldOf schema P name with
    | none => [(P, .field pos al name args dirs items)]
    | some f =>
      if IsComposite schema f.type.name then
        if items.isEmpty then [(P, .field pos al name args dirs items)]
        else invalidSelections schema frags f.type.name items
      else if items.isEmpty then []
      else [(P, .field pos al name args dirs items)]
  | .inline pos none dirs items => [(P, .inline pos none dirs items)]
  | .inline pos (some C) dirs items =>
    if IsComposite schema C then invalidSelections schema frags C items
    else [(P, .inline pos (some C) dirs items)]
  | .spread pos name dirs =>
    if (AMap.get? frags name).isSome then [] else [(P, .spread pos name dirs)]
/-- The invalid selections of a selection set, in document order, each with its static type. -/
def invalidSelections (schema : Schema) (frags : Frags) (P : String) :
    List Selection → List (String × Selection)
  | [] => []
  | s :: rest => invalidSel schema frags P s ++ invalidSelections schema frags P rest
end

/-! ### Warnings -/

/-- The type condition a selection narrows to, with the place where it is written. -/
def narrowsTo (frags : Frags) : Selection → Option (Pos × String)
  | .field .. => none
  | .inline pos cond _ _ => cond.map (fun C => (pos, C))
  | .spread pos name _ => (AMap.get? frags name).map (fun fd => (pos, fd.typeCond))

/-- No object type possible here is possible for the type `C`. -/
def NeverMatches (schema : Schema) (N : List String) (C : String) : Prop :=
  IsComposite schema C ∧ ∀ T ∈ N, T ∉ possibleTypes schema C

instance (schema : Schema) (N : List String) (C : String) : Decidable (NeverMatches schema N C) := by
  unfold NeverMatches; infer_instance

mutual
/-- The fragments below one selection that can never match: place, type condition and the object types
possible there. -/
def neverMatchingSel (schema : Schema) (frags : Frags) (P : String) (N : List String) :
    Selection → List (Pos × String × List String)
  | .field _ _ name _ _ items =>
    match fieldOf schema P name with
    | none => []
    | some f =>
      if IsComposite schema f.type.name then
        neverMatching schema frags f.type.name (possibleTypes schema f.type.name) items
      else []
  | .inline _ none _ _ => []
  | .inline pos (some C) _ items =>
    if IsComposite schema C then
      (if NeverMatches schema N C then [(pos, C, N)] else []) ++
      neverMatching schema frags C ((possibleTypes schema C).filter (fun T => T ∈ N)) items
    else []
  | .spread pos name _ =>
    match AMap.get? frags name with
    | none => []
    | some fd => if NeverMatches schema N fd.typeCond then [(pos, fd.typeCond, N)] else []
/-- The fragments written in a selection set that can never match, in document order. -/
def neverMatching (schema : Schema) (frags : Frags) (P : String) (N : List String) :
    List Selection → List (Pos × String × List String)
  | [] => []
  | s :: rest => neverMatchingSel schema frags P N s ++ neverMatching schema frags P N rest
end

/-- The over-narrowing warnings among some warnings. -/
def narrowings (ws : List Warning) : List (Pos × String × List String) :=
  ws.filterMap (fun w => match w with
    | .overFragmentNarrowing p ts C => some (p, C, ts)
    | _ => none)

mutual
/-- The uses of deprecated fields below one selection. -/
def deprecatedSel (schema : Schema) (P : String) : Selection → List (Pos × String × String)
  | .field pos _ name _ _ items =>
    match fieldOf schema P name with
    | none => []
    | some f => deprecatedUses schema f.type.name items ++
        if f.deprecated then [(pos, f.name, P)] else []
  | .inline _ none _ _ => []
  | .inline _ (some C) _ items => deprecatedUses schema C items
  | .spread .. => []
/-- The uses of deprecated fields written in a selection set: position, field name and enclosing type.
Sub-selections come before the field they belong to, otherwise document order. -/
def deprecatedUses (schema : Schema) (P : String) : List Selection → List (Pos × String × String)
  | [] => []
  | s :: rest => deprecatedSel schema P s ++ deprecatedUses schema P rest
end

mutual
/-- The uses of deprecated fields below one selection that the user is warned about: those whose own selection
is valid down to its leaves. -/
def warnedUsesSel (schema : Schema) (frags : Frags) (P : String) : Selection → List (Pos × String × String)
  | .field pos al name args dirs items =>
    match fieldOf schema P name with
    | none => []
    | some f =>
      (if IsComposite schema f.type.name then warnedUses schema frags f.type.name items else []) ++
      (if f.deprecated && (invalidSel schema frags P (.field pos al name args dirs items)).isEmpty then
        [(pos, f.name, P)] else [])
  | .inline _ none _ _ => []
  | .inline _ (some C) _ items => if IsComposite schema C then warnedUses schema frags C items else []
  | .spread .. => []
/-- The uses of deprecated fields written in a selection set that the user is warned about. -/
def warnedUses (schema : Schema) (frags : Frags) (P : String) :
    List Selection → List (Pos × String × String)
  | [] => []
  | s :: rest => warnedUsesSel schema frags P s ++ warnedUses schema frags P rest
end

/-- The deprecation warnings among some warnings. -/
def deprecations (ws : List Warning) : List (Pos × String × String) :=
  ws.filterMap (fun w => match w with
    | .deprecatedFieldUse p f t => some (p, f, t)
    | _ => none)

/-! ### Definitions -/

/-- The type a definition selects on.  A subscription is resolved against the query type, as the code
does. -/
def rootType : Definition → Option String
  | .selectionSet .. => none
  | .operation .query .. => some "Query"
  | .operation .mutation .. => some "Mutation"
  | .operation .subscription .. => some "Query"
  | .fragment f => some f.typeCond

/-- The selections of a definition. -/
def itemsOf : Definition → List Selection
  | .selectionSet _ items => items
  | .operation _ _ _ _ _ items => items
  | .fragment f => f.items

/-- The variables of a definition. -/
def varsOf : Definition → List VarDef
  | .operation _ _ _ vars _ _ => vars
  | _ => []

mutual
/-- The positions of the constructs written in a selection. -/
def positionsSel : Selection → List Pos
  | .field pos _ _ _ _ items => pos :: positionsSels items
  | .inline pos _ _ items => pos :: positionsSels items
  | .spread pos _ _ => [pos]
/-- The positions of the constructs written in a selection set. -/
def positionsSels : List Selection → List Pos
  | [] => []
  | s :: rest => positionsSel s ++ positionsSels rest
end

/-- The positions of the constructs written in a definition. -/
def positionsOf : Definition → List Pos
  | .selectionSet pos items => pos :: positionsSels items
  | .operation _ pos _ vars _ items => pos :: vars.map VarDef.pos ++ positionsSels items
  | .fragment f => f.pos :: positionsSels f.items

/-- The position an error points to, if it points anywhere. -/
def errorPos : IrError → Option Pos
  | .selectionSetAsOperationUnsupported p => some p
  | .unknownFragment _ p _ => some p
  | .missingTypeConditionOnInlineFragment p => some p
  | .selectionSetOnWrongType _ p => some p
  | .missingSelectionSetOnType _ p => some p
  | .unknownField _ _ p _ => some p
  | .variable (.unknownCustomVariableType _ p) => some p
  | .variable (.unprocessableVariableType _ p) => some p
  | .variable (.listOfListNotSupported _ p) => some p
  | .missingType _ => none
  | .unexpectedComplexTraversal _ => none
  | .inputObjectOnSelection _ _ => none
  | .mixedTerminalAndComplexFields _ _ => none

/-- The position a warning points to. -/
def warningPos : Warning → Pos
  | .overFragmentNarrowing p _ _ => p
  | .deprecatedFieldUse p _ _ => p

/-! ### Nesting -/

/-- `Enters schema frags (P, items) (P', items')`: while processing the selection set `items` on type `P`,
the compiler has to process the selection set `items'` on type `P'`. -/
inductive Enters (schema : Schema) (frags : Frags) :
    String × List Selection → String × List Selection → Prop where
  | field {P : String} {items : List Selection} {pos : Pos} {al : Option String} {name : String}
      {args : List (String × Value)} {dirs : List Directive} {sub : List Selection} {f : SField} :
      .field pos al name args dirs sub ∈ items → fieldOf schema P name = some f →
      IsComposite schema f.type.name → sub ≠ [] →
      Enters schema frags (P, items) (f.type.name, sub)
  | inline {P : String} {items : List Selection} {pos : Pos} {C : String} {dirs : List Directive}
      {sub : List Selection} :
      .inline pos (some C) dirs sub ∈ items → IsComposite schema C →
      Enters schema frags (P, items) (C, sub)
  | spread {P : String} {items : List Selection} {pos : Pos} {name : String} {dirs : List Directive}
      {fd : FragmentDef} :
      .spread pos name dirs ∈ items → AMap.get? frags name = some fd →
      IsComposite schema fd.typeCond → Enters schema frags (P, items) (fd.typeCond, fd.items)

/-- There is an infinite chain of selection sets, each entered from the one before. -/
def InfiniteChain (schema : Schema) (frags : Frags) (P : String) (items : List Selection) : Prop :=
  ∃ c : Nat → String × List Selection, c 0 = (P, items) ∧ ∀ n, Enters schema frags (c n) (c (n + 1))

mutual
/-- The fragment names spread anywhere in a selection. -/
def spreadsSel : Selection → List String
  | .field _ _ _ _ _ items => spreadsSels items
  | .inline _ _ _ items => spreadsSels items
  | .spread _ name _ => [name]
/-- The fragment names spread anywhere in a selection set. -/
def spreadsSels : List Selection → List String
  | [] => []
  | s :: rest => spreadsSel s ++ spreadsSels rest
end

/-- Imported fragments do not spread each other in an infinite chain. -/
def FragmentsAcyclic (frags : Frags) : Prop :=
  ¬ ∃ c : Nat → String, ∀ n, ∃ fd, AMap.get? frags (c n) = some fd ∧ c (n + 1) ∈ spreadsSels fd.items

/-! ### Collected fields -/

/-- One collected field: response key, field definition, sub-selections. -/
structure Contribution where
  key : String
  field : SField
  items : List Selection

/-- GraphQL's CollectFields for the concrete object type `T` (without `@skip`/`@include`): the fields, in
document order, that the selection set, written on type `P`, yields for an object of type `T`. -/
inductive Coll (schema : Schema) (frags : Frags) (T : String) :
    String → List Selection → List Contribution → Prop where
  | nil {P : String} : Coll schema frags T P [] []
  | field {P : String} {pos : Pos} {al : Option String} {name : String}
      {args : List (String × Value)} {dirs : List Directive} {items rest : List Selection}
      {f : SField} {L : List Contribution} :
      fieldOf schema P name = some f → Coll schema frags T P rest L →
      Coll schema frags T P (.field pos al name args dirs items :: rest)
        (⟨al.getD name, f, items⟩ :: L)
  | inlineIn {P C : String} {pos : Pos} {dirs : List Directive} {items rest : List Selection}
      {L₁ L : List Contribution} :
      T ∈ possibleTypes schema C → Coll schema frags T C items L₁ → Coll schema frags T P rest L →
      Coll schema frags T P (.inline pos (some C) dirs items :: rest) (L₁ ++ L)
  | inlineOut {P C : String} {pos : Pos} {dirs : List Directive} {items rest : List Selection}
      {L : List Contribution} :
      T ∉ possibleTypes schema C → Coll schema frags T P rest L →
      Coll schema frags T P (.inline pos (some C) dirs items :: rest) L
  | spreadIn {P : String} {pos : Pos} {name : String} {dirs : List Directive} {fd : FragmentDef}
      {rest : List Selection} {L₁ L : List Contribution} :
      AMap.get? frags name = some fd → T ∈ possibleTypes schema fd.typeCond →
      Coll schema frags T fd.typeCond fd.items L₁ → Coll schema frags T P rest L →
      Coll schema frags T P (.spread pos name dirs :: rest) (L₁ ++ L)
  | spreadOut {P : String} {pos : Pos} {name : String} {dirs : List Directive} {fd : FragmentDef}
      {rest : List Selection} {L : List Contribution} :
      AMap.get? frags name = some fd → T ∉ possibleTypes schema fd.typeCond →
      Coll schema frags T P rest L → Coll schema frags T P (.spread pos name dirs :: rest) L

/-- Collecting several selection sets written on type `P`, in order (GraphQL's MergeSelectionSets followed
by CollectFields). -/
def CollMany (schema : Schema) (frags : Frags) (T P : String) (sets : List (List Selection))
    (L : List Contribution) : Prop :=
  ∃ Ls, List.Forall₂ (Coll schema frags T P) sets Ls ∧ L = Ls.flatten

/-! ### The generated tree -/

/-- A way to collect: object type, static type, selection sets, collected fields. -/
abbrev Collector := String → String → List (List Selection) → List Contribution → Prop

/-- The generated field type says what the collected fields `cs`, of which `c` is the first, say; `D`
describes the alternatives of a composite position. -/
def TypeIs (D : String → List (List Selection) → List Complex → Prop) (c : Contribution)
    (cs : List Contribution) : IRType → Prop
  | .complex sub => c.field.type.definition.isComplex = true ∧
      D c.field.type.name (cs.map Contribution.items) sub
  | .enum n => c.field.type.definition = .enum ∧ n = c.field.type.name
  | .scalar s => c.field.type.definition = .scalar s
  | .typeName => c.field.type.definition = .typeName

/-- The generated property says what the collected fields `cs` of one response key say: the first of them
decides the documentation, the deprecation mark and the list/null modifiers. -/
def FieldIs (D : String → List (List Selection) → List Complex → Prop) (cs : List Contribution)
    (fld : IRField) : Prop :=
  ∃ c rest, cs = c :: rest ∧ fld.propName = c.key ∧ fld.documentation = c.field.documentation ∧
    fld.deprecated = c.field.deprecated ∧ fld.last = c.field.type.last ∧
    fld.rest = c.field.type.rest ∧ TypeIs D c cs fld.type

/-- The collected fields of one response key and one named type. -/
def sameSlot (L : List Contribution) (key tn : String) : List Contribution :=
  L.filter (fun c => decide (c.key = key ∧ c.field.type.name = tn))

/-- The generated properties of one object type, in sorted order: one for every response key and named
type collected. -/
def FieldsAre (D : String → List (List Selection) → List Complex → Prop) (L : List Contribution)
    (fields : List IRField) : Prop :=
  fields.Pairwise (fun a b => a.propName ≤ b.propName) ∧
  ∃ slots : List (String × String), slots.Nodup ∧
    (∀ s, s ∈ slots ↔ ∃ c ∈ L, (c.key, c.field.type.name) = s) ∧
    List.Forall₂ (fun s fld => FieldIs D (sameSlot L s.1 s.2) fld) slots fields

/-- `TreeIs schema coll n P sets ps`: down to depth `n`, the generated alternatives `ps` are those of the
merged selection sets `sets` on type `P`.  There is one alternative for every possible object type, in
strictly sorted order, and its properties are the collected fields. -/
def TreeIs (schema : Schema) (coll : Collector) : Nat → String → List (List Selection) →
    List Complex → Prop
  | 0, _, _, _ => True
  | n + 1, P, sets, ps =>
    (ps.map Complex.name).Pairwise (· < ·) ∧
    (∀ T, T ∈ ps.map Complex.name ↔ T ∈ possibleTypes schema P) ∧
    ∀ T fields, Complex.mk T fields ∈ ps →
      ∃ L, coll T P sets L ∧ FieldsAre (TreeIs schema coll n) L fields

/-- The selection sets that GraphQL merges under the response key `key`. -/
def merged (L : List Contribution) (key : String) : List (List Selection) :=
  (L.filter (fun c => decide (c.key = key))).map Contribution.items

/-- `Below schema frags P sets ps P' sets' ps'`: in the alternatives `ps` generated for the selection sets
`sets` on type `P`, the alternatives `ps'` are nested, and GraphQL evaluates the selection sets `sets'` on
type `P'` there. -/
inductive Below (schema : Schema) (frags : Frags) : String → List (List Selection) → List Complex →
    String → List (List Selection) → List Complex → Prop where
  | refl {P : String} {sets : List (List Selection)} {ps : List Complex} :
      Below schema frags P sets ps P sets ps
  | step {P : String} {sets : List (List Selection)} {ps : List Complex} {P' : String}
      {sets' : List (List Selection)} {ps' : List Complex} {T : String} {fields : List IRField}
      {L : List Contribution} {fld : IRField} {sub : List Complex} {c : Contribution} :
      Complex.mk T fields ∈ ps → CollMany schema frags T P sets L → fld ∈ fields →
      fld.type = .complex sub → c ∈ L → c.key = fld.propName →
      Below schema frags c.field.type.name (merged L c.key) sub P' sets' ps' →
      Below schema frags P sets ps P' sets' ps'

/-- `Position schema frags P sets P' sets'`: evaluating the selection sets `sets` on type `P`, GraphQL
evaluates the selection sets `sets'` on type `P'`. -/
inductive Position (schema : Schema) (frags : Frags) : String → List (List Selection) →
    String → List (List Selection) → Prop where
  | refl {P : String} {sets : List (List Selection)} : Position schema frags P sets P sets
  | step {P : String} {sets : List (List Selection)} {P' : String} {sets' : List (List Selection)}
      {T : String} {L : List Contribution} {c : Contribution} :
      T ∈ possibleTypes schema P → CollMany schema frags T P sets L → c ∈ L →
      Position schema frags c.field.type.name (merged L c.key) P' sets' →
      Position schema frags P sets P' sets'

/-- At every position and for every object type, a response key has a single named type. -/
def OneTypePerKey (schema : Schema) (frags : Frags) (P : String) (sets : List (List Selection)) : Prop :=
  ∀ P' sets', Position schema frags P sets P' sets' → ∀ T ∈ possibleTypes schema P', ∀ L,
    CollMany schema frags T P' sets' L → ∀ c ∈ L, ∀ c' ∈ L, c.key = c'.key →
      c.field.type.name = c'.field.type.name

mutual
/-- No generated object type below this field type lists a property twice. -/
def DistinctType : IRType → Prop
  | .complex ps => DistinctPoss ps
  | _ => True
/-- No generated object type among or below these alternatives lists a property twice. -/
def DistinctPoss : List Complex → Prop
  | [] => True
  | c :: cs => DistinctComplex c ∧ DistinctPoss cs
/-- This object type lists no property twice, nor does one below it. -/
def DistinctComplex : Complex → Prop
  | .mk _ fields => (fields.map IRField.propName).Nodup ∧ DistinctFields fields
/-- No generated object type below these properties lists a property twice. -/
def DistinctFields : List IRField → Prop
  | [] => True
  | f :: fs => DistinctField f ∧ DistinctFields fs
/-- No generated object type below this property lists a property twice. -/
def DistinctField : IRField → Prop
  | .mk _ _ _ _ _ ty => DistinctType ty
end

end Qlc.Spec
