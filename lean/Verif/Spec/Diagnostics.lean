import Verif.Spec.Selections
import Verif.Spec.Imports
import Verif.Spec.Text
import Verif.Spec.Types
/-
Independent specification of what the user reads: the plain text of one notice, and which notice belongs to
which fault of a file.
-/
set_option autoImplicit false

namespace Qlc.Spec

/-- A place in a file: line and column (from 1), the text of the line, and an optional hint. -/
structure Spot where
  line : Nat
  column : Nat
  quoted : String
  hint : Option String
  deriving DecidableEq, Repr

/-- One thing the user is told: how serious it is, what it is, in which file, and where. -/
structure Notice where
  kind : String
  what : String
  file : Option String
  spot : Option Spot
  deriving DecidableEq, Repr

/-- So many blankText. -/
def blankText (n : Nat) : String := String.ofList (List.replicate n ' ')

/-- The lines a notice is printed on.  The bar stands under the colon-free end of the line number; the caret
stands under the reported column. -/
def Notice.lines (n : Notice) : List String :=
  (n.kind ++ ": " ++ n.what) ::
  match n.file, n.spot with
  | none, _ => []
  | some f, none => ["  --> " ++ f]
  | some f, some s =>
    [blankText (toString s.line).length ++ "--> " ++ f ++ ":" ++ toString s.line ++ ":" ++ toString s.column,
     blankText (toString s.line).length ++ " |",
     toString s.line ++ " | " ++ s.quoted,
     blankText (toString s.line).length ++ " | " ++ blankText (s.column - 1) ++ "^"] ++
    (match s.hint with
      | none => []
      | some h => [blankText (toString s.line).length ++ " = help: " ++ h])

/-- The text of a notice: its lines, without a line end after the last. -/
def Notice.text (n : Notice) : String := joinWith "\n" n.lines

/-- `q` is the line with number `n` of a text; a number beyond the end is shown as a fixed text. -/
def QuotedLine (contents : String) (n : Nat) (q : String) : Prop :=
  ∃ ls, IsLines contents.toList ls ∧
    (ls[n - 1]? = some q.toList ∨ ls.length ≤ n - 1 ∧ q = "<<QLC unknown line>>")

/-- The suggestions for a misspelled name: the candidates at distance below 3, or `other` if there are
none. -/
def Suggests (dist : String → String → Nat) (name : String) (candidates : List String)
    (other text : String) : Prop :=
  ∃ near : List String, near.Perm (candidates.filter (fun c => decide (dist name c < 3))) ∧
    text = if near = [] then other
      else " Did you mean one of the following: `" ++ joinWith "`, `" near ++ "`?"

/-- A notice about a position of the file. -/
structure At (file contents kind what : String) (hint : Option String) (pos : Pos) (n : Notice) : Prop where
  kind : n.kind = kind
  what : n.what = what
  file : n.file = some file
  spot : ∃ q, QuotedLine contents pos.line q ∧ n.spot = some ⟨pos.line, pos.column, q, hint⟩

/-- What the user is told about selecting on a type `C` that is not composite. -/
inductive WrongTypeNotice (schema : Schema) (file contents : String) (pos : Pos) (C : String) :
    Notice → Prop where
  | unknown : schema.getType C = none →
      WrongTypeNotice schema file contents pos C
        ⟨"program error", "failed lookup of type `" ++ C ++ "`", none, none⟩
  | input {t : SType} {m : String} {fl : FieldsLookup} :
      schema.getType C = some t → t.definition = .inputObject m fl →
      WrongTypeNotice schema file contents pos C
        ⟨"program error", "unexpectedly traversing a terminal of type `" ++ C ++ "`", none, none⟩
  | leaf {t : SType} {n : Notice} :
      schema.getType C = some t → ((∃ vs, t.definition = .enum vs) ∨ (∃ m, t.definition = .scalar m)) →
      At file contents "error" ("unexpected selection on field of type `" ++ C ++ "`")
        (some "This field is not a complex type with selections. Did you accidentally place the curlies on this field?")
        pos n →
      WrongTypeNotice schema file contents pos C n

/-- What the user is told about an invalid selection written where the static type is `P`. -/
inductive SelectionNotice (schema : Schema) (frags : Frags) (dist : String → String → Nat)
    (file contents : String) (P : String) : Selection → Notice → Prop where
  | unknownField {pos : Pos} {al : Option String} {name : String} {args : List (String × Value)}
      {dirs : List Directive} {items : List Selection} {fl : FieldsLookup} {s : String} {n : Notice} :
      fieldsOf schema P = some fl → AMap.get? fl name = none →
      Suggests dist name (AMap.keys fl) "" s →
      At file contents "error" ("unknown field `" ++ name ++ "`")
        (some ("Check the fields of `" ++ P ++ "`." ++ s)) pos n →
      SelectionNotice schema frags dist file contents P (.field pos al name args dirs items) n
  | missingSelections {pos : Pos} {al : Option String} {name : String} {args : List (String × Value)}
      {dirs : List Directive} {f : SField} {n : Notice} :
      fieldOf schema P name = some f → IsComposite schema f.type.name →
      At file contents "error" ("expected selection on field of type `" ++ f.type.name ++ "`")
        (some "This is a complex type, and it is improper GraphQL to not have at least one sub field selection.")
        pos n →
      SelectionNotice schema frags dist file contents P (.field pos al name args dirs []) n
  | selectionsOnLeaf {pos : Pos} {al : Option String} {name : String} {args : List (String × Value)}
      {dirs : List Directive} {items : List Selection} {f : SField} {n : Notice} :
      fieldOf schema P name = some f → ¬ IsComposite schema f.type.name → items ≠ [] →
      At file contents "error" ("unexpected selection on field of type `" ++ f.type.name ++ "`")
        (some "This field is not a complex type with selections. Did you accidentally place the curlies on this field?")
        pos n →
      SelectionNotice schema frags dist file contents P (.field pos al name args dirs items) n
  | noCondition {pos : Pos} {dirs : List Directive} {items : List Selection} {n : Notice} :
      At file contents "error" "fragment missing type condition on inline fragment"
        (some "Fragments must specify a type they can be spread on.") pos n →
      SelectionNotice schema frags dist file contents P (.inline pos none dirs items) n
  | condition {pos : Pos} {C : String} {dirs : List Directive} {items : List Selection} {n : Notice} :
      WrongTypeNotice schema file contents pos C n →
      SelectionNotice schema frags dist file contents P (.inline pos (some C) dirs items) n
  | unknownFragment {pos : Pos} {name : String} {dirs : List Directive} {s : String} {n : Notice} :
      AMap.get? frags name = none →
      Suggests dist name (AMap.keys frags) " Did you forget to import it?" s →
      At file contents "error" ("unknown spread fragment name `" ++ name ++ "`")
        (some ("This fragment name doesn't appear to be in scope." ++ s)) pos n →
      SelectionNotice schema frags dist file contents P (.spread pos name dirs) n

/-- Something the user is warned about: a fragment that can never match (place, type condition, object types
possible there) or a use of a deprecated field (place, field, type). -/
inductive Concern where
  | neverMatches (pos : Pos) (condition : String) (possible : List String)
  | deprecated (pos : Pos) (field type : String)
  deriving DecidableEq, Repr

/-- The warning for a concern. -/
inductive ConcernNotice (file contents : String) : Concern → Notice → Prop where
  | neverMatches {pos : Pos} {C : String} {possible names : List String} {n : Notice} :
      names.Nodup → (∀ T, T ∈ names ↔ T ∈ possible) →
      At file contents "warning" ("fragment over narrowing with type `" ++ C ++ "`")
        (some ("The parent types of this spread are limited to `" ++ joinWith "`, `" names ++
          "`, making spreading `" ++ C ++ "` extraneous.")) pos n →
      ConcernNotice file contents (.neverMatches pos C possible) n
  | deprecated {pos : Pos} {field type : String} {n : Notice} :
      At file contents "warning" ("use of deprecated field `" ++ field ++ "` on type `" ++ type ++ "`") none
        pos n →
      ConcernNotice file contents (.deprecated pos field type) n

/-- The fragments that can never match among some concerns. -/
def neverMatchingOf (cs : List Concern) : List (Pos × String × List String) :=
  cs.filterMap (fun c => match c with | .neverMatches p C N => some (p, C, N) | _ => none)

/-- The uses of deprecated fields among some concerns. -/
def deprecatedOf (cs : List Concern) : List (Pos × String × String) :=
  cs.filterMap (fun c => match c with | .deprecated p f t => some (p, f, t) | _ => none)

/-- The texts of the warnings about a selection set written on type `P`: one for each fragment that can never
match and, if asked for, one for each use of a deprecated field; each kind in document order. -/
def WarningTexts (schema : Schema) (frags : Frags) (showDep : Bool) (file contents P : String)
    (items : List Selection) (texts : List String) : Prop :=
  ∃ cs ns, neverMatchingOf cs = neverMatching schema frags P (possibleTypes schema P) items ∧
    deprecatedOf cs = (if showDep then warnedUses schema frags P items else []) ∧
    List.Forall₂ (ConcernNotice file contents) cs ns ∧ texts = ns.map Notice.text

/-- Where a definition starts. -/
def startOf : Definition → Pos
  | .selectionSet pos _ => pos
  | .operation _ pos _ _ _ _ => pos
  | .fragment f => f.pos

/-- What the user is told about a file that does not hold exactly one definition. -/
inductive FileNotice (ext : Ext) (w : World) (p : Path) : Notice → Prop where
  | unreadable {e : String} : w.read p = .error e →
      FileNotice ext w p ⟨"error", "could not read `" ++ p.display ++ "`: " ++ e, none, none⟩
  | syntax {contents e : String} : w.read p = .ok contents → ext.parse contents = .error e →
      FileNotice ext w p ⟨"error", e, some p.display, none⟩
  | empty {contents : String} : w.read p = .ok contents → ext.parse contents = .ok [] →
      FileNotice ext w p ⟨"error", "missing defintion in the document", none, none⟩
  | several {contents : String} {d1 d2 : Definition} {rest : List Definition} {n : Notice} :
      w.read p = .ok contents → ext.parse contents = .ok (d1 :: d2 :: rest) →
      At p.display contents "error" "multi definition files unsupported"
        (some "QLC does not support documents with more than one fragment, query or mutation per file. Move this definition to a seperate file and import it instead.")
        (startOf d2) n →
      FileNotice ext w p n

/-- `importer` is the file `p` itself or a file it loads, and `ic` is what it holds. -/
def Reached (w : World) (cfg : CompileConfig) (p : Path) (contents : String) (importer : Path)
    (ic : String) : Prop :=
  (importer = p ∧ ic = contents) ∨ (Loads w cfg p contents importer ∧ w.read importer = .ok ic)

/-- The place of an import line: column 9 is the quote before the path. -/
def ImportLine.spot (il : ImportLine) (hint : Option String) : Spot :=
  ⟨il.number, 9, String.ofList il.line, hint⟩

/-- What the user is told about an import line that names an unreadable file. -/
def UnreadableImport (w : World) (cfg : CompileConfig) (p : Path) (contents : String) (n : Notice) : Prop :=
  ∃ importer ic il q e, Reached w cfg p contents importer ic ∧ Imports cfg importer ic il q ∧
    w.read q = .error e ∧
    n = ⟨"error", "could not read `" ++ q.display ++ "`: " ++ e, some importer.display,
      some (il.spot none)⟩

/-- What the user is told about importing the file `q`, which does not hold a fragment.  The text names the
compiled file, not the imported one. -/
def NonFragmentImport (w : World) (cfg : CompileConfig) (p : Path) (contents : String) (q : Path)
    (n : Notice) : Prop :=
  ∃ importer ic il, Reached w cfg p contents importer ic ∧ Imports cfg importer ic il q ∧
    n = ⟨"error", "cannot import non-fragment GraphQL document `" ++ p.display ++ "`", some p.display,
      some (il.spot (some "This document is not a fragment, and importing it is probably a mistake."))⟩

/-- The file `q` holds one definition, which is not a fragment. -/
def HoldsOperation (ext : Ext) (w : World) (q : Path) : Prop :=
  ∃ c d, w.read q = .ok c ∧ ext.parse c = .ok [d] ∧ ∀ f, d ≠ .fragment f

/-- The texts printed about the imports of a file: those of unreadable imports, and one for each loaded file
that holds an operation. -/
structure ImportTexts (ext : Ext) (w : World) (cfg : CompileConfig) (p : Path) (contents : String)
    (texts : List String) : Prop where
  sound : ∀ t ∈ texts, ∃ n : Notice, t = n.text ∧ (UnreadableImport w cfg p contents n ∨
    ∃ q, Loads w cfg p contents q ∧ HoldsOperation ext w q ∧ NonFragmentImport w cfg p contents q n)
  unreadable : ∀ n, UnreadableImport w cfg p contents n → n.text ∈ texts
  nonFragment : ∀ q, Loads w cfg p contents q → HoldsOperation ext w q →
    ∃ n, NonFragmentImport w cfg p contents q n ∧ n.text ∈ texts

/-- A list of lists. -/
def ListsOfLists : VarTy → Prop
  | .list (.list _) => True
  | .nonNull (.list (.list _)) => True
  | _ => False

instance (t : VarTy) : Decidable (ListsOfLists t) := by
  unfold ListsOfLists; split <;> infer_instance

/-- What the user is told about a variable that cannot be used. -/
inductive VariableNotice (schema : Schema) (file contents : String) (v : VarDef) : Notice → Prop where
  | nested {n : Notice} : ListsOfLists v.type →
      At file contents "error" ("unsupported list of lists type for variable `" ++ v.name ++ "`")
        (some "QLC does not support lists of lists as variable types") v.pos n →
      VariableNotice schema file contents v n
  | unsupported {n : Notice} : ¬ SupportedVarType v.type → ¬ ListsOfLists v.type →
      At file contents "program error" ("failed to process variable `" ++ v.name ++ "`")
        (some "This is most likely a bug in QLC or some unsupported variable type. Please report a bug!") v.pos n →
      VariableNotice schema file contents v n
  | unknownType {n : Notice} : SupportedVarType v.type → ¬ KnownTypeName schema (baseName v.type) →
      At file contents "error" ("unknown type for variable `" ++ baseName v.type ++ "`") none v.pos n →
      VariableNotice schema file contents v n

end Qlc.Spec
