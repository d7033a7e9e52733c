import Verif.Model.Variable
/-
Model of src/graphql/ir.rs (message rendering is in `Cli`).
-/
set_option autoImplicit false

namespace Qlc

/-- ir.rs:13-25 `Warning`. -/
inductive Warning where
  | overFragmentNarrowing (pos : Pos) (possibleTypes : List String) (spreadTypeName : String)
  | deprecatedFieldUse (pos : Pos) (fieldName parentTypeName : String)
  deriving DecidableEq, Repr

/-- ir.rs:55-60 `ForeignFragmentJumpState`. -/
inductive JumpState where
  | rootLocal | justChanged | fullyJumped
  deriving DecidableEq, Repr

/-- ir.rs:63-65. -/
def JumpState.isFullyJumped : JumpState → Bool
  | .fullyJumped => true
  | _ => false

/-- ir.rs:67-69. -/
def JumpState.isLocal : JumpState → Bool
  | .rootLocal => true
  | _ => false

/-- ir.rs:71-77. -/
def JumpState.jumpInline (j : JumpState) : JumpState :=
  if j.isLocal then .rootLocal else .fullyJumped

/-- ir.rs:79-85. -/
def JumpState.jumpForeign (j : JumpState) : JumpState :=
  if j.isLocal then .justChanged else .fullyJumped

/-- ir.rs:88-112 `Error`. -/
inductive IrError where
  | selectionSetAsOperationUnsupported (pos : Pos)
  | unknownFragment (name : String) (pos : Pos) (possible : List String)
  | missingTypeConditionOnInlineFragment (pos : Pos)
  | selectionSetOnWrongType (typeName : String) (pos : Pos)
  | missingSelectionSetOnType (typeName : String) (pos : Pos)
  | unknownField (parentTypeName fieldName : String) (pos : Pos) (possible : List String)
  | variable (e : VarError)
  | missingType (typeName : String)
  | unexpectedComplexTraversal (typeName : String)
  | inputObjectOnSelection (fieldName typeName : String)
  | mixedTerminalAndComplexFields (terminalTypeName complexTypeName : String)
  deriving DecidableEq, Repr

/-- ir.rs:204-211 `CompileContext` without the warnings cell, which the model threads as a list. -/
structure Ctx where
  schema : Schema
  showDeprecationWarnings : Bool
  fragments : AMap String FragmentDef

/-- ir.rs:226-227 `FieldId`: alias and *type name* (insert_field passes `field_type_name` for the
second component, ir.rs:684,695, although the comment says field name). -/
abbrev FieldId := String × String

/- ir.rs:229-308,433-437: `UniqueFields` is `List FEntry`, one entry of `concrete_objects` is `Obj`,
`ComplexTraversal` is `CTrav`, `FieldTraversal` is `Trav`.  `TerminalTraversal` is its type name. -/
mutual
/-- ir.rs:433-437 `FieldTraversal`. -/
inductive Trav where
  | terminal (typeName : String)
  | complex (c : CTrav)
/-- ir.rs:302-308 `ComplexTraversal`. -/
inductive CTrav where
  | mk (typeName : String) (lookup : FieldsLookup) (objs : List Obj)
/-- One entry of `concrete_objects` (ir.rs:307): object type name and its `UniqueFields`. -/
inductive Obj where
  | mk (typeName : String) (fields : List FEntry)
/-- One entry of `UniqueFields::collection` (ir.rs:231). -/
inductive FEntry where
  | mk (id : FieldId) (field : SField) (trav : Trav)
end

def CTrav.typeName : CTrav → String | .mk n _ _ => n
def CTrav.lookup : CTrav → FieldsLookup | .mk _ l _ => l
def CTrav.objs : CTrav → List Obj | .mk _ _ o => o
def Obj.typeName : Obj → String | .mk n _ => n
def Obj.fields : Obj → List FEntry | .mk _ f => f
def FEntry.id : FEntry → FieldId | .mk i _ _ => i
def FEntry.field : FEntry → SField | .mk _ f _ => f
def FEntry.trav : FEntry → Trav | .mk _ _ t => t

/-- ir.rs:248-256: `UniqueFields::insert`, with the merge of the incoming traversal into an occupied
slot given as a function `merge` (`occupant.extend_from(traversal)`). -/
def uInsert (id : FieldId) (field : SField) (trav : Trav) (merge : Trav → Except IrError Trav) :
    List FEntry → Except IrError (List FEntry)
  | [] => .ok [.mk id field trav]
  | .mk id' field' trav' :: rest =>
    if id' = id then
      match merge trav' with
      | .error e => .error e
      | .ok t => .ok (.mk id' field' t :: rest)
    else
      match uInsert id field trav merge rest with
      | .error e => .error e
      | .ok rest' => .ok (.mk id' field' trav' :: rest')

/-- ir.rs:369-371: look up an object in `concrete_objects` and run a fallible update on its fields;
an absent object is skipped. -/
def updateObj (T : String) (f : List FEntry → Except IrError (List FEntry)) :
    List Obj → Except IrError (List Obj)
  | [] => .ok []
  | .mk T' u :: rest =>
    if T' = T then
      match f u with
      | .error e => .error e
      | .ok u' => .ok (.mk T' u' :: rest)
    else
      match updateObj T f rest with
      | .error e => .error e
      | .ok rest' => .ok (.mk T' u :: rest')

/-- A fold with early exit, for the `for … { …?; }` loops. -/
def foldE {ε α σ : Type} (f : σ → α → Except ε σ) (s : σ) : List α → Except ε σ
  | [] => .ok s
  | a :: as =>
    match f s a with
    | .error e => .error e
    | .ok s' => foldE f s' as

/- ir.rs:259-264, 367-374, 439-458: the three mutually recursive `extend_from`s.  The recursion is on
the traversal that is merged in ("other"); `…Mergers` turns each of its entries into an update of the
receiver, so that the hash oracle can permute the updates.  On an error Rust leaves the receiver
partially updated; the model drops the receiver's update.  The receiver is only looked at again to
find further errors, because the enclosing compile fails anyway. -/
mutual
/-- ir.rs:439-457 `FieldTraversal::extend_from(&mut self, other)`, as `Trav.merge other self`. -/
def Trav.merge (ω : Hash) : Trav → Trav → Except IrError Trav
  | .complex oc, .complex sc =>
    match CTrav.merge ω oc sc with
    | .error e => .error e
    | .ok c => .ok (.complex c)
  | .terminal otn, .complex sc => .error (.mixedTerminalAndComplexFields otn sc.typeName)
  | .terminal _, .terminal stn => .ok (.terminal stn)
  | .complex oc, .terminal stn => .error (.mixedTerminalAndComplexFields stn oc.typeName)
/-- ir.rs:367-374 `ComplexTraversal::extend_from(&mut self, other)`. -/
def CTrav.merge (ω : Hash) : CTrav → CTrav → Except IrError CTrav
  | .mk _ _ objs, .mk tn lk sobjs =>
    match foldE (fun acc (m : String × (List FEntry → Except IrError (List FEntry))) =>
        updateObj m.1 m.2 acc) sobjs (ω.perm ["ir.rs:368"] (objMergers ω objs)) with
    | .error e => .error e
    | .ok sobjs' => .ok (.mk tn lk sobjs')
/-- The updates performed by ir.rs:368-372, one per object of `other`; each runs
`UniqueFields::extend_from` (ir.rs:259-264). -/
def objMergers (ω : Hash) : List Obj → List (String × (List FEntry → Except IrError (List FEntry)))
  | [] => []
  | .mk T fs :: rest =>
    (T, fun u => foldE (fun acc (f : List FEntry → Except IrError (List FEntry)) => f acc) u
      (ω.perm ["ir.rs:260"] (entryMergers ω fs))) :: objMergers ω rest
/-- The insertions performed by ir.rs:260-262, one per field entry of `other`. -/
def entryMergers (ω : Hash) : List FEntry → List (List FEntry → Except IrError (List FEntry))
  | [] => []
  | .mk id f t :: rest => uInsert id f t (fun s => Trav.merge ω t s) :: entryMergers ω rest
end

/-- ir.rs:336-352 and 354-365: `insert_terminal` / `insert_complex` insert the same entry into every
concrete object. -/
def CTrav.insertAll (ω : Hash) (id : FieldId) (field : SField) (trav : Trav) (c : CTrav) :
    Except IrError CTrav :=
  match foldE (fun acc T => updateObj T (uInsert id field trav (Trav.merge ω trav)) acc) c.objs
      (ω.perm ["ir.rs:343,361"] (c.objs.map Obj.typeName)) with
  | .error e => .error e
  | .ok objs => .ok (.mk c.typeName c.lookup objs)

/-- Collecting possible type names into a `HashMap` (ir.rs:418-421): duplicates collapse. -/
def dedupObjs (names : List String) : List Obj :=
  (names.foldl setInsert []).map (fun n => Obj.mk n [])

/-- ir.rs:397-431 `TryFrom<(&CompileContext, &str, Pos)> for ComplexTraversal`. -/
def CTrav.new (schema : Schema) (typeName : String) (pos : Pos) : Except IrError CTrav :=
  match schema.getType typeName with
  | none => .error (.missingType typeName)
  | some t =>
    match t.definition with
    | .object fl => .ok (.mk typeName fl [.mk typeName []])
    | .interface _ fl ps => .ok (.mk typeName fl (dedupObjs ps))
    | .union _ ps fl => .ok (.mk typeName fl (dedupObjs ps))
    | .inputObject _ _ => .error (.unexpectedComplexTraversal typeName)
    | .enum _ => .error (.selectionSetOnWrongType typeName pos)
    | .scalar _ => .error (.selectionSetOnWrongType typeName pos)

/-- ir.rs:311-334 `clone_for_type_spread`. -/
def CTrav.cloneForTypeSpread (ω : Hash) (schema : Schema) (self : CTrav) (spreadTypeName : String)
    (pos : Pos) (js : JumpState) (ws : List Warning) : Except IrError (CTrav × List Warning) :=
  match CTrav.new schema spreadTypeName pos with
  | .error e => .error e
  | .ok base =>
    let objs := base.objs.filter (fun o => o.typeName ∈ self.objs.map Obj.typeName)
    let ws' :=
      if !js.isFullyJumped && objs.isEmpty then
        ws ++ [.overFragmentNarrowing pos (ω.perm ["ir.rs:324"] (self.objs.map Obj.typeName))
          spreadTypeName]
      else ws
    .ok (.mk base.typeName base.lookup objs, ws')

/-- What one pass over a selection set yields: the result, the mutated parent, the warnings. -/
structure Collected where
  result : Except (List IrError) Unit
  parent : CTrav
  warnings : List Warning

/-- The recursive call `collect_fields_from_selection_set` as a parameter: jump state, items, parent,
warnings.  `none` means the fuel ran out. -/
abbrev CollectFn := JumpState → List Selection → CTrav → List Warning → Option Collected

/-- ir.rs:650-708 `insert_field`.  Returns the errors (`none` error list = `Ok`), the parent and the
warnings. -/
def insertField (ω : Hash) (ctx : Ctx) (rec : CollectFn) (pos : Pos) (alias : Option String)
    (name : String) (items : List Selection) (parent : CTrav) (js : JumpState) (ws : List Warning) :
    Option Collected :=
  let key := alias.getD name
  match AMap.get? parent.lookup name with
  | none => some ⟨.error [.unknownField parent.typeName name pos
      (ω.perm ["ir.rs:663"] (AMap.keys parent.lookup))], parent, ws⟩
  | some field =>
    let typeName := field.type.name
    let finish (p : CTrav) (w : List Warning) : Collected :=
      ⟨.ok (), p,
        if ctx.showDeprecationWarnings && field.deprecated && js.isLocal then
          w ++ [.deprecatedFieldUse pos field.name parent.typeName]
        else w⟩
    if items.isEmpty then
      if field.type.definition.isComplex then
        some ⟨.error [.missingSelectionSetOnType typeName pos], parent, ws⟩
      else
        match parent.insertAll ω (key, typeName) field (.terminal typeName) with
        | .error e => some ⟨.error [e], parent, ws⟩
        | .ok p => some (finish p ws)
    else
      if field.type.definition.isComplex then
        match CTrav.new ctx.schema typeName pos with
        | .error e => some ⟨.error [e], parent, ws⟩
        | .ok sub =>
          match rec js items sub ws with
          | none => none
          | some c =>
            match c.result with
            | .error es => some ⟨.error es, parent, c.warnings⟩
            | .ok () =>
              match parent.insertAll ω (key, typeName) field (.complex c.parent) with
              | .error e => some ⟨.error [e], parent, c.warnings⟩
              | .ok p => some (finish p c.warnings)
      else
        some ⟨.error [.selectionSetOnWrongType typeName pos], parent, ws⟩

/-- State of the loop ir.rs:716-798. -/
structure LoopSt where
  errors : List IrError
  parent : CTrav
  warnings : List Warning

/-- Outcome of one iteration: go on, or the early `return` of the `?` at ir.rs:790. -/
inductive Flow where
  | next (s : LoopSt)
  | ret (e : IrError) (s : LoopSt)

/-- ir.rs:767-797: the part of an iteration shared by inline fragments and spreads. -/
def collectSpread (ω : Hash) (ctx : Ctx) (rec : CollectFn) (typeName : String) (pos : Pos)
    (items : List Selection) (newJs : JumpState) (s : LoopSt) : Option Flow :=
  match s.parent.cloneForTypeSpread ω ctx.schema typeName pos newJs s.warnings with
  | .error e =>
    some (.next (if newJs.isLocal then { s with errors := s.errors ++ [e] } else s))
  | .ok (sub, ws) =>
    match rec newJs items sub ws with
    | none => none
    | some c =>
      match c.result with
      | .ok () =>
        match CTrav.merge ω c.parent s.parent with
        | .error e => some (.ret e { s with warnings := c.warnings })
        | .ok p => some (.next { s with parent := p, warnings := c.warnings })
      | .error es =>
        some (.next { s with
          errors := if newJs.isLocal then s.errors ++ es else s.errors
          warnings := c.warnings })

/-- ir.rs:717-797: one iteration of the loop. -/
def collectOne (ω : Hash) (ctx : Ctx) (rec : CollectFn) (js : JumpState) (sel : Selection)
    (s : LoopSt) : Option Flow :=
  match sel with
  | .field pos alias name _ _ items =>
    match insertField ω ctx rec pos alias name items s.parent js s.warnings with
    | none => none
    | some c =>
      match c.result with
      | .ok () => some (.next { s with parent := c.parent, warnings := c.warnings })
      | .error es =>
        some (.next { errors := s.errors ++ es, parent := c.parent, warnings := c.warnings })
  | .inline pos cond _ items =>
    match cond with
    | none =>
      some (.next { s with errors := s.errors ++ [.missingTypeConditionOnInlineFragment pos] })
    | some typeName => collectSpread ω ctx rec typeName pos items js.jumpInline s
  | .spread pos name _ =>
    match AMap.get? ctx.fragments name with
    | none =>
      some (.next { s with errors := s.errors ++
        [.unknownFragment name pos (ω.perm ["ir.rs:760"] (AMap.keys ctx.fragments))] })
    | some fd => collectSpread ω ctx rec fd.typeCond pos fd.items js.jumpForeign s

/-- ir.rs:717-804: the loop and the final test on `errors`. -/
def collectLoop (ω : Hash) (ctx : Ctx) (rec : CollectFn) (js : JumpState) :
    List Selection → LoopSt → Option Collected
  | [], s => some ⟨if s.errors.isEmpty then .ok () else .error s.errors, s.parent, s.warnings⟩
  | sel :: rest, s =>
    match collectOne ω ctx rec js sel s with
    | none => none
    | some (.ret e s') => some ⟨.error [e], s'.parent, s'.warnings⟩
    | some (.next s') => collectLoop ω ctx rec js rest s'

/-- ir.rs:710-805 `collect_fields_from_selection_set`, with fuel bounding the nesting of calls. -/
def collect (ω : Hash) (ctx : Ctx) : Nat → CollectFn
  | 0 => fun _ _ _ _ => none
  | n + 1 => fun js items parent ws => collectLoop ω ctx (collect ω ctx n) js items ⟨[], parent, ws⟩

/- ir.rs:460-486: `FieldType`, `Complex`, `Field`; a `ComplexCollection` is its list of
possibilities. -/
mutual
/-- ir.rs:469-475 `FieldType`. -/
inductive IRType where
  | typeName
  | complex (possibilities : List Complex)
  | enum (name : String)
  | scalar (s : ScalarType)
/-- ir.rs:477-481 `Complex`. -/
inductive Complex where
  | mk (name : String) (fields : List IRField)
/-- ir.rs:460-467 `Field`; `last`/`rest` are its `type_modifiers`. -/
inductive IRField where
  | mk (propName : String) (documentation : Option String) (deprecated : Bool) (last : Mod)
      (rest : List Mod) (type : IRType)
end

def Complex.name : Complex → String | .mk n _ => n
def Complex.fields : Complex → List IRField | .mk _ f => f
def IRField.propName : IRField → String | .mk p _ _ _ _ _ => p
def IRField.documentation : IRField → Option String | .mk _ d _ _ _ _ => d
def IRField.deprecated : IRField → Bool | .mk _ _ d _ _ _ => d
def IRField.last : IRField → Mod | .mk _ _ _ l _ _ => l
def IRField.rest : IRField → List Mod | .mk _ _ _ _ r _ => r
def IRField.type : IRField → IRType | .mk _ _ _ _ _ t => t

mutual
/-- ir.rs:621-648 `get_type_ir_for_field`. -/
def typeIrForField (ω : Hash) (path : List String) (field : SField) : Trav → Except IrError IRType
  | .terminal tn =>
    match field.type.definition with
    | .inputObject => .error (.inputObjectOnSelection field.name field.type.name)
    | .typeName => .ok .typeName
    | .scalar s => .ok (.scalar s)
    | .enum => .ok (.enum field.type.name)
    | .interface | .union | .object => .error (.unexpectedComplexTraversal tn)
  | .complex c =>
    match field.type.definition with
    | .inputObject => .error (.inputObjectOnSelection field.name field.type.name)
    | .typeName => .ok .typeName
    | .scalar s => .ok (.scalar s)
    | .enum => .ok (.enum field.type.name)
    | .interface | .union | .object =>
      match CTrav.toIR ω path c with
      | .error e => .error e
      | .ok ps => .ok (.complex ps)
/-- ir.rs:377-395 `TryFrom<ComplexTraversal> for ComplexCollection`. -/
def CTrav.toIR (ω : Hash) (path : List String) : CTrav → Except IrError (List Complex)
  | .mk _ _ objs =>
    match seqE (ω.perm ("ir.rs:381" :: path) (objsToIR ω path objs)) with
    | .error e => .error e
    | .ok ps => .ok (sortBy Complex.name ps)
/-- ir.rs:382-387: the closure mapped over `concrete_objects`; the fields of one object are converted
by ir.rs:267-289 `TryFrom<UniqueFields> for Vec<Field>`. -/
def objsToIR (ω : Hash) (path : List String) : List Obj → List (Except IrError Complex)
  | [] => []
  | .mk T fs :: rest =>
    (match seqE (ω.perm ("ir.rs:271" :: T :: path) (entriesToIR ω (T :: path) fs)) with
      | .error e => .error e
      | .ok irs => .ok (.mk T (sortBy IRField.propName irs))) :: objsToIR ω path rest
/-- ir.rs:272-281: the closure mapped over the entries of `UniqueFields`. -/
def entriesToIR (ω : Hash) (path : List String) : List FEntry → List (Except IrError IRField)
  | [] => []
  | .mk id f t :: rest =>
    (match typeIrForField ω (id.1 :: path) f t with
      | .error e => .error e
      | .ok ty => .ok (.mk id.1 f.documentation f.deprecated f.type.last f.type.rest ty)) ::
      entriesToIR ω path rest
end

/-- ir.rs:499-505 `OperationKind`. -/
inductive OpKind where
  | query | subscription | mutation | fragment
  deriving DecidableEq, Repr

/-- ir.rs:488-497 `From<&str> for OperationKind`. -/
def OpKind.ofName (name : String) : OpKind :=
  if name = "Mutation" then .mutation
  else if name = "Subscription" then .subscription
  else if name = "Query" then .query
  else .fragment

/-- ir.rs:507-513 `Operation`. -/
structure Operation where
  name : String
  collection : List Complex
  variables : Option (List Variable)
  kind : OpKind

/-- ir.rs:576-601: type name, fallback name for the three keyworded operations. -/
def opNames : OpKeyword → String × String
  | .query => ("Query", "Query")
  | .mutation => ("Mutation", "Mutation")
  | .subscription => ("Query", "Subscription")

/-- ir.rs:515-569 `Operation::compile` and 571-619 `build_from_operation`.  The result carries the
warnings in both cases; `none` means the fuel ran out. -/
def Operation.compile (ω : Hash) (fuel : Nat) (ctx : Ctx) (d : Definition) :
    Option (Except (List IrError) Operation × List Warning) :=
  match d with
  | .selectionSet pos _ => some (.error [.selectionSetAsOperationUnsupported pos], [])
  | .operation kw pos name vars _ items =>
    let names := opNames kw
    match CTrav.new ctx.schema names.1 pos with
    | .error e => some (.error [e], [])
    | .ok parent =>
      match collect ω ctx fuel .rootLocal items parent [] with
      | none => none
      | some c =>
        match c.result with
        | .error es => some (.error es, c.warnings)
        | .ok () =>
          match c.parent.toIR ω [] with
          | .error e => some (.error [e], c.warnings)
          | .ok coll =>
            match tryBuildVariableIr ctx.schema vars with
            | .error e => some (.error [.variable e], c.warnings)
            | .ok vs => some (.ok ⟨name.getD names.2, coll, vs, OpKind.ofName names.1⟩, c.warnings)
  | .fragment f =>
    match CTrav.new ctx.schema f.typeCond f.pos with
    | .error e => some (.error [e], [])
    | .ok parent =>
      match collect ω ctx fuel .rootLocal f.items parent [] with
      | none => none
      | some c =>
        match c.result with
        | .error es => some (.error es, c.warnings)
        | .ok () =>
          match c.parent.toIR ω [] with
          | .error e => some (.error [e], c.warnings)
          | .ok coll => some (.ok ⟨f.name, coll, none, .fragment⟩, c.warnings)

end Qlc
