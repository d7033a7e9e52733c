import Verif.Spec.Erase
import Verif.Spec.Demo
/-
Property C27: arguments, directives and default values are never looked at.
-/
set_option autoImplicit false

namespace Qlc
open Spec

theorem get?_bareFrags (m : AMap String FragmentDef) (k : String) :
    AMap.get? (bareFrags m) k = (AMap.get? m k).map bareFragment := by
  induction m with
  | nil => rfl
  | cons e m ih =>
    obtain ⟨k', v⟩ := e
    show AMap.get? ((k', bareFragment v) :: bareFrags m) k = _
    unfold AMap.get?
    split
    · rfl
    · exact ih

theorem keys_bareFrags (m : AMap String FragmentDef) : AMap.keys (bareFrags m) = AMap.keys m := by
  unfold AMap.keys bareFrags
  rw [List.map_map]
  rfl

theorem insert_bareFrags (m : AMap String FragmentDef) (k : String) (v : FragmentDef) :
    bareFrags (AMap.insert m k v) = AMap.insert (bareFrags m) k (bareFragment v) := by
  induction m with
  | nil => rfl
  | cons e m ih =>
    obtain ⟨k', v'⟩ := e
    show bareFrags (AMap.insert ((k', v') :: m) k v) = AMap.insert ((k', bareFragment v') :: bareFrags m) k _
    unfold AMap.insert
    split
    · rfl
    · show (k', bareFragment v') :: bareFrags (AMap.insert m k v) = _
      rw [ih]

theorem bareSels_isEmpty (items : List Selection) : (bareSels items).isEmpty = items.isEmpty := by
  cases items with
  | nil => rw [bareSels]
  | cons s rest => rw [bareSels]; rfl

/-- The context with bare fragments. -/
def bareCtx (ctx : Ctx) : Ctx := { ctx with fragments := bareFrags ctx.fragments }

theorem collectOne_bare (ω : Hash) (ctx : Ctx) {rec rec' : CollectFn}
    (hrec : ∀ js items p ws, rec' js (bareSels items) p ws = rec js items p ws) (js : JumpState)
    (sel : Selection) (s : LoopSt) :
    collectOne ω (bareCtx ctx) rec' js (bareSel sel) s = collectOne ω ctx rec js sel s := by
  have hspread : ∀ typeName pos items newJs, collectSpread ω (bareCtx ctx) rec' typeName pos
      (bareSels items) newJs s = collectSpread ω ctx rec typeName pos items newJs s := by
    intro typeName pos items newJs
    unfold collectSpread
    simp only [hrec]
    rfl
  cases sel with
  | field pos al name args dirs items =>
    rw [bareSel]
    have : insertField ω (bareCtx ctx) rec' pos al name (bareSels items) s.parent js s.warnings =
        insertField ω ctx rec pos al name items s.parent js s.warnings := by
      unfold insertField
      simp only [hrec, bareSels_isEmpty]
      rfl
    unfold collectOne
    simp only [this]
  | «inline» pos cond dirs items =>
    rw [bareSel]
    unfold collectOne
    cases cond with
    | none => rfl
    | some C => simp only [hspread]
  | spread pos name dirs =>
    rw [bareSel]
    unfold collectOne
    have hg : AMap.get? (bareCtx ctx).fragments name = (AMap.get? ctx.fragments name).map bareFragment :=
      get?_bareFrags _ _
    have hk : AMap.keys (bareCtx ctx).fragments = AMap.keys ctx.fragments := keys_bareFrags _
    simp only [hg, hk]
    cases AMap.get? ctx.fragments name with
    | none => rfl
    | some fd => exact hspread _ _ _ _

theorem collect_bare (ω : Hash) (ctx : Ctx) (n : Nat) : ∀ js items p ws,
    collect ω (bareCtx ctx) n js (bareSels items) p ws = collect ω ctx n js items p ws := by
  induction n with
  | zero => intro js items p ws; rfl
  | succ n ih =>
    intro js items p ws
    show collectLoop ω (bareCtx ctx) _ js (bareSels items) _ = collectLoop ω ctx _ js items _
    generalize LoopSt.mk [] p ws = s
    induction items generalizing s with
    | nil => rw [bareSels]; rfl
    | cons sel rest ih' =>
      rw [bareSels]
      unfold collectLoop
      rw [collectOne_bare ω ctx ih]
      cases collectOne ω ctx (collect ω ctx n) js sel s with
      | none => rfl
      | some fl =>
        cases fl with
        | ret e s' => rfl
        | next s' => exact ih' s'

theorem variables_bare (schema : Schema) (vars : List VarDef) :
    tryBuildVariableIr schema (vars.map (fun v => { v with default := none })) =
      tryBuildVariableIr schema vars := by
  unfold tryBuildVariableIr
  rw [List.map_map]
  have h1 : (vars.map (fun v => { v with default := none })).isEmpty = vars.isEmpty := by cases vars <;> rfl
  have h2 : buildVariable schema ∘ (fun v => { v with default := none }) = buildVariable schema := by
    funext v; rfl
  rw [h1, h2]

theorem compile_bare (ω : Hash) (fuel : Nat) (ctx : Ctx) (d : Definition) :
    Operation.compile ω fuel (bareCtx ctx) (bareDef d) = Operation.compile ω fuel ctx d := by
  cases d with
  | selectionSet pos items => rfl
  | operation kw pos name vars dirs items =>
    unfold bareDef Operation.compile
    have hs : (bareCtx ctx).schema = ctx.schema := rfl
    simp only [collect_bare, hs, variables_bare]
  | fragment f =>
    unfold bareDef bareFragment Operation.compile
    simp only [collect_bare]
    rfl

/-- **C27.** Two documents, with their imported fragments, that differ only in arguments, directives and
default values of variables compile to the same result: the same errors, warnings and generated tree, hence
the same text. -/
theorem C27_arguments_ignored (ω : Hash) (fuel : Nat) (schema : Schema) (showDep : Bool)
    (frags frags' : AMap String FragmentDef) (d d' : Definition) (hd : bareDef d = bareDef d')
    (hf : bareFrags frags = bareFrags frags') :
    Operation.compile ω fuel ⟨schema, showDep, frags⟩ d =
      Operation.compile ω fuel ⟨schema, showDep, frags'⟩ d' := by
  rw [← compile_bare, ← compile_bare ω fuel ⟨schema, showDep, frags'⟩, hd]
  unfold bareCtx
  simp only
  rw [hf]

/-! ### Whole files -/

/-- A parser that drops arguments and directives. -/
def bareExt (ext : Ext) : Ext := ⟨fun s => bareParse (ext.parse s), ext.dist⟩

theorem bareDef_pos (d : Definition) : (bareDef d).pos = d.pos := by cases d <;> rfl

theorem parse_bare (ext : Ext) (contents : String) (path : Path) :
    parseGraphqlFile (bareExt ext) contents path =
      match parseGraphqlFile ext contents path with
      | .error m => .error m
      | .ok d => .ok (bareDef d) := by
  unfold parseGraphqlFile
  have hp : (bareExt ext).parse contents = bareParse (ext.parse contents) := rfl
  rw [hp]
  cases ext.parse contents with
  | error e => rfl
  | ok ds =>
    match ds with
    | [] => rfl
    | [d] => rfl
    | d :: d2 :: rest =>
      simp only [bareParse, List.map_cons, bareDef_pos]

theorem foreign_bare (ext : Ext) (path : Path) : ∀ (l : List (Path × (String × Location)))
    (frags : AMap String FragmentDef) (msgs : List Msg),
    foreignLoop (bareExt ext) path l (bareFrags frags) msgs =
      (bareFrags (foreignLoop ext path l frags msgs).1, (foreignLoop ext path l frags msgs).2)
  | [], frags, msgs => rfl
  | (p, contents, loc) :: rest, frags, msgs => by
    unfold foreignLoop
    rw [parse_bare]
    cases parseGraphqlFile ext contents p with
    | error m => exact foreign_bare ext path rest frags msgs
    | ok d =>
      cases d with
      | selectionSet pos items => exact foreign_bare ext path rest frags _
      | operation kw pos name vars dirs items => exact foreign_bare ext path rest frags _
      | fragment f =>
        simp only [bareDef]
        have := foreign_bare ext path rest (AMap.insert frags f.name f) msgs
        rw [insert_bareFrags] at this
        exact this

theorem generate_bare (ω : Hash) (fuel : Nat) (ext : Ext) (cfg : CompileConfig) (schema : Schema) (w : World)
    (path : Path) : generateFile ω fuel (bareExt ext) cfg schema w path =
      generateFile ω fuel ext cfg schema w path := by
  unfold generateFile
  cases readGraphqlFile w path with
  | error m => rfl
  | ok contents =>
    simp only
    rw [parse_bare]
    cases parseGraphqlFile ext contents path with
    | error m => rfl
    | ok d =>
      simp only
      cases addImported w cfg fuel path contents ⟨[], []⟩ with
      | none => rfl
      | some r =>
        cases r with
        | panic => rfl
        | done st =>
          simp only
          unfold parseForeignFragments
          have h := foreign_bare ext path (ω.perm ["graphql.rs:175"] st.imports) [] st.messages
          have h0 : bareFrags [] = [] := rfl
          rw [h0] at h
          rw [h]
          simp only
          have hc := compile_bare ω fuel ⟨schema, cfg.showDeprecationWarnings,
            (foreignLoop ext path (ω.perm ["graphql.rs:175"] st.imports) [] st.messages).1⟩ d
          unfold bareCtx at hc
          simp only at hc
          rw [hc]
          rfl

/-- **C27.** The same for whole files, including every message and every byte written: if two parsers read
every file the same way up to arguments, directives and default values, compiling a file does the same with
both. -/
theorem C27_files_arguments_ignored (ω : Hash) (fuel : Nat) (ext ext' : Ext) (cfg : CompileConfig)
    (schema : Schema) (w : World) (path : Path)
    (hparse : ∀ s, bareParse (ext.parse s) = bareParse (ext'.parse s)) (hdist : ext.dist = ext'.dist) :
    compileFile ω fuel ext cfg schema w path = compileFile ω fuel ext' cfg schema w path := by
  have he : bareExt ext = bareExt ext' := by
    unfold bareExt
    rw [hdist]
    congr 1
    funext s
    exact hparse s
  unfold compileFile
  rw [← generate_bare, he, generate_bare]

/-! ### Examples -/

/-- `query Q { node(id: $x) { id @skip(if: true) } }`. -/
def Demo.skipQuery : Definition := .operation .query ⟨1, 1⟩ (some "Q") [] [⟨"live", []⟩]
  [.field ⟨2, 1⟩ none "node" [("id", .var "x")] [] [
    .field ⟨2, 9⟩ none "id" [] [⟨"skip", [("if", .bool true)]⟩] []]]

/-- The same without arguments and directives. -/
def Demo.noSkipQuery : Definition := .operation .query ⟨1, 1⟩ (some "Q") [] []
  [.field ⟨2, 1⟩ none "node" [] [] [Demo.leaf 2 9 "id"]]

example : bareDef Demo.skipQuery = bareDef Demo.noSkipQuery := by
  simp [Demo.skipQuery, Demo.noSkipQuery, Demo.leaf, bareDef, bareSels, bareSel]

/-- **C27, consequence.** The skipped field `id` is typed as always present. -/
theorem C27_skipped_field_typed_as_present : ∃ before after,
    Demo.textOf Demo.tsCfg Demo.schema [] Demo.skipQuery =
      some (before ++ "export type Q_node = {\n  readonly id: string;\n};" ++ after) := by
  refine ⟨"/* eslint-disable */\n// This file was automatically generated and should not be edited.\n\nimport type { QueryDocumentNode } from \"doc\";\n\n",
    "\n\nexport type Q = {\n  readonly node: Q_node | null;\n};\n\ndeclare const graphqlDocument: QueryDocumentNode<Q, never>;\nexport default graphqlDocument;", ?_⟩
  decide +kernel

end Qlc
