import Verif.Spec.Same
import Verif.Spec.Files
/-
Renaming fragments and operations throughout a project (C116).
-/
set_option autoImplicit false

namespace Qlc.Spec

mutual
/-- The selection with fragments renamed by `ρ`.  Positions, arguments and directives may differ: a longer name
moves what follows it. -/
inductive RenamedSel (ρ : String → String) : Selection → Selection → Prop where
  | field {pos pos' : Pos} {al : Option String} {name : String} {args args' : List (String × Value)}
      {dirs dirs' : List Directive} {items items' : List Selection} : RenamedSels ρ items items' →
      RenamedSel ρ (.field pos al name args dirs items) (.field pos' al name args' dirs' items')
  | inline {pos pos' : Pos} {cond : Option String} {dirs dirs' : List Directive} {items items' : List Selection} :
      RenamedSels ρ items items' → RenamedSel ρ (.inline pos cond dirs items) (.inline pos' cond dirs' items')
  | spread {pos pos' : Pos} {name : String} {dirs dirs' : List Directive} :
      RenamedSel ρ (.spread pos name dirs) (.spread pos' (ρ name) dirs')
/-- The selection set with fragments renamed by `ρ`. -/
inductive RenamedSels (ρ : String → String) : List Selection → List Selection → Prop where
  | nil : RenamedSels ρ [] []
  | cons {s s' : Selection} {rest rest' : List Selection} : RenamedSel ρ s s' → RenamedSels ρ rest rest' →
      RenamedSels ρ (s :: rest) (s' :: rest')
end

/-- The fragment definition with fragments renamed by `ρ`, its own name included. -/
structure RenamedFragment (ρ : String → String) (f f' : FragmentDef) : Prop where
  name : f'.name = ρ f.name
  typeCond : f'.typeCond = f.typeCond
  items : RenamedSels ρ f.items f'.items

/-- The definition with fragments renamed by `ρ`.  An operation may be given another name at will. -/
inductive RenamedDef (ρ : String → String) : Definition → Definition → Prop where
  | selectionSet {pos pos' : Pos} {items items' : List Selection} : RenamedSels ρ items items' →
      RenamedDef ρ (.selectionSet pos items) (.selectionSet pos' items')
  | operation {kw : OpKeyword} {pos pos' : Pos} {name name' : Option String} {vars vars' : List VarDef}
      {dirs dirs' : List Directive} {items items' : List Selection} :
      vars.map declared = vars'.map declared → RenamedSels ρ items items' →
      RenamedDef ρ (.operation kw pos name vars dirs items) (.operation kw pos' name' vars' dirs' items')
  | fragment {f f' : FragmentDef} : RenamedFragment ρ f f' → RenamedDef ρ (.fragment f) (.fragment f')

/-- The imported fragments, renamed: what was known as `n` is now known as `ρ n`. -/
def RenamedScope (ρ : String → String) (frags frags' : Frags) : Prop :=
  ∀ n, match AMap.get? frags n, AMap.get? frags' (ρ n) with
    | none, none => True
    | some f, some f' => RenamedFragment ρ f f'
    | _, _ => False

/-! ### What a renaming leaves of diagnostics and generated files -/

/-- What a warning is about, apart from where it stands. -/
def warningAbout : Warning → Warning
  | .overFragmentNarrowing _ possible spread => .overFragmentNarrowing ⟨0, 0⟩ possible spread
  | .deprecatedFieldUse _ field parent => .deprecatedFieldUse ⟨0, 0⟩ field parent

/-- What an error in the variables is about, apart from where it stands. -/
def varErrorAbout : VarError → VarError
  | .unknownCustomVariableType name _ => .unknownCustomVariableType name ⟨0, 0⟩
  | .unprocessableVariableType name _ => .unprocessableVariableType name ⟨0, 0⟩
  | .listOfListNotSupported name _ => .listOfListNotSupported name ⟨0, 0⟩

/-- What an error is about after fragments have been renamed by `ρ`, apart from where it stands and from the
known fragments that are suggested instead of an unknown one. -/
def errorAbout (ρ : String → String) : IrError → IrError
  | .selectionSetAsOperationUnsupported _ => .selectionSetAsOperationUnsupported ⟨0, 0⟩
  | .unknownFragment name _ _ => .unknownFragment (ρ name) ⟨0, 0⟩ []
  | .missingTypeConditionOnInlineFragment _ => .missingTypeConditionOnInlineFragment ⟨0, 0⟩
  | .selectionSetOnWrongType n _ => .selectionSetOnWrongType n ⟨0, 0⟩
  | .missingSelectionSetOnType n _ => .missingSelectionSetOnType n ⟨0, 0⟩
  | .unknownField p f _ possible => .unknownField p f ⟨0, 0⟩ possible
  | .variable e => .variable (varErrorAbout e)
  | .missingType n => .missingType n
  | .unexpectedComplexTraversal n => .unexpectedComplexTraversal n
  | .inputObjectOnSelection f t => .inputObjectOnSelection f t
  | .mixedTerminalAndComplexFields a b => .mixedTerminalAndComplexFields a b

/-- The result for a definition called `a` and the one for the renamed definition called `b`: the same tree, or
errors about the same. -/
def SameButName (ρ : String → String) (a b : String) : Except (List IrError) Operation →
    Except (List IrError) Operation → Prop
  | .ok op, .ok op' => op.name = a ∧ op'.name = b ∧ op'.collection = op.collection ∧
      op'.variables = op.variables ∧ op'.kind = op.kind
  | .error es, .error es' => es'.map (errorAbout id) = es.map (errorAbout ρ)
  | _, _ => False

/-- The name `y` is the name `x` with `b` in place of `a` at its beginning. -/
def NameRenamed (a b x y : String) : Prop := ∃ rest, x = a ++ rest ∧ y = b ++ rest

/-- References to types of the file are renamed, others are left alone. -/
def FlatRenamed (a b : String) : Flat → Flat → Prop
  | .declared x, .declared y => NameRenamed a b x y
  | x, y => x = y

/-- The property is the same but for references to types of the file. -/
structure PropRenamed (a b : String) (p p' : TsProp) : Prop where
  name : p'.name = p.name
  doc : p'.doc = p.doc
  deprecated : p'.deprecated = p.deprecated
  last : p'.last = p.last
  rest : p'.rest = p.rest
  flat : FlatRenamed a b p.flat p'.flat

/-- The declared type is the same but for names of types of the file. -/
def DeclRenamed (a b : String) : TsDecl → TsDecl → Prop
  | .object n props, .object n' props' => NameRenamed a b n n' ∧ List.Forall₂ (PropRenamed a b) props props'
  | .union n alts, .union n' alts' => NameRenamed a b n n' ∧ List.Forall₂ (NameRenamed a b) alts alts'
  | _, _ => False

/-- `FileRenamed a b f f'`: the generated file `f'` is the generated file `f` with `b` in place of `a` at the
beginning of the names of its types. -/
structure FileRenamed (a b : String) (f f' : TsFile) : Prop where
  docNode : f'.docNode = f.docNode
  docModule : f'.docModule = f.docModule
  globals : f'.globals = f.globals
  globalsModule : f'.globalsModule = f.globalsModule
  name : f.name = a ∧ f'.name = b
  decls : List.Forall₂ (DeclRenamed a b) f.decls f'.decls
  vars : (f.vars = none ∧ f'.vars = none) ∨
    ∃ vs, f.vars = some (a ++ "Variables", vs) ∧ f'.vars = some (b ++ "Variables", vs)
  args : (f.args = [a] ∧ f'.args = [b]) ∨ (f.args = [a, "never"] ∧ f'.args = [b, "never"]) ∨
    (f.args = [a, a ++ "Variables"] ∧ f'.args = [b, b ++ "Variables"])

/-! ### Projects -/

/-- What a parser says about a text before and after the renaming. -/
def RenamedParse (ρ : String → String) : Except String Document → Except String Document → Prop
  | .ok ds, .ok ds' => List.Forall₂ (RenamedDef ρ) ds ds'
  | .error _, .error _ => True
  | _, _ => False

/-- The text after the renaming: the same import lines, and definitions with renamed fragments. -/
structure RenamedText (ext : Ext) (ρ : String → String) (text text' : String) : Prop where
  imports : importsOf text' = importsOf text
  parse : RenamedParse ρ (ext.parse text) (ext.parse text')

/-- A file before and after the renaming: unreadable in both cases, or renamed. -/
def RenamedRead (ext : Ext) (ρ : String → String) : Except String String → Except String String → Prop
  | .ok text, .ok text' => RenamedText ext ρ text text'
  | .error e, .error e' => e = e'
  | _, _ => False

/-- The file system after fragments have been renamed by `ρ` in all files that compiling `p` reads. -/
structure RenamedFor (ext : Ext) (ρ : String → String) (cfg : CompileConfig) (w w' : World) (p : Path) : Prop where
  resolve : w'.resolve = w.resolve
  writeErr : w'.writeErr = w.writeErr
  files : ∀ q, Reads w cfg p q → RenamedRead ext ρ (w.read q) (w'.read q)

/-- The definition in a file, if there is exactly one. -/
def OnlyDefinition (ext : Ext) (w : World) (p : Path) (d : Definition) : Prop :=
  ∃ contents, w.read p = .ok contents ∧ ext.parse contents = .ok [d]

/-- Fragments that compiling `p` imports have different names. -/
def FragmentNamesUnique (ext : Ext) (w : World) (cfg : CompileConfig) (p : Path) : Prop :=
  ∀ contents, w.read p = .ok contents → ∀ f f', ImportedFragment ext w cfg p contents f →
    ImportedFragment ext w cfg p contents f' → f.name = f'.name → f = f'

/-- The results of compiling `p` before and after the renaming: both never end, both crash, both fail with as
many messages of each severity, or both give a text, the same text with the names of its types renamed, with the
same globals and as many messages of each severity. -/
def GeneratedAlike (ext : Ext) (cfg : CompileConfig) (w w' : World) (p : Path) :
    Option (PanicOr (Except (List Msg) (List Msg × Compile))) →
    Option (PanicOr (Except (List Msg) (List Msg × Compile))) → Prop
  | none, none => True
  | some .panic, some .panic => True
  | some (.done (.error ms)), some (.done (.error ms')) => (ms'.map Msg.level).Perm (ms.map Msg.level)
  | some (.done (.ok (ms, c))), some (.done (.ok (ms', c'))) =>
    (ms'.map Msg.level).Perm (ms.map Msg.level) ∧ c'.globalTypesUsed.Perm c.globalTypesUsed ∧
      ∃ d d' f f', OnlyDefinition ext w p d ∧ OnlyDefinition ext w' p d' ∧
        FileRenamed (dataName d) (dataName d') f f' ∧ c.contents = f.text cfg.useReadonlyTypes ∧
        c'.contents = f'.text cfg.useReadonlyTypes
  | _, _ => False

/-- The file system after fragments have been renamed by `ρ` in all files that compiling the project reads.  No
other file has changed. -/
structure ProjectRenamed (ext : Ext) (ρ : String → String) (cfg : CompileConfig) (root : Entry) (w w' : World) :
    Prop where
  resolve : w'.resolve = w.resolve
  writeErr : w'.writeErr = w.writeErr
  files : ∀ p q, FoundIn root p → Reads w cfg p q → RenamedRead ext ρ (w.read q) (w'.read q)
  others : ∀ id, (∀ p q, FoundIn root p → Reads w cfg p q → w.resolve q ≠ id) → w'.disk id = w.disk id

end Qlc.Spec
