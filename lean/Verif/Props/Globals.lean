import Verif.Lemmas.Globals
import Verif.Props.Schema
import Verif.Spec.Demo
import Mathlib.Logic.Relation
/-
The globals file: C30, C31, C32, C60.
-/
set_option autoImplicit false

namespace Qlc
open Spec

variable (ω : Hash) (fuel : Nat) (cfg : TsConfig) (schema : Schema) (used : List String)

/-! ### C60: enums -/

/-- Appending text that starts below all characters of the words does not change their order. -/
theorem lt_append_of_lt (c : Char) : ∀ (a b : List Char) (s t : List Char),
    (∀ x ∈ b, c < x) → a < b → a ++ c :: s < b ++ c :: t := by
  intro a
  induction a with
  | nil =>
    intro b s t hb h
    cases b with
    | nil => exact absurd h (List.lt_irrefl _)
    | cons y b => exact List.Lex.rel (hb y (List.mem_cons_self ..))
  | cons x a ih =>
    intro b s t hb h
    cases b with
    | nil => cases h
    | cons y b =>
      rcases List.cons_lt_cons_iff.1 h with h' | ⟨e, h'⟩
      · exact List.Lex.rel h'
      · exact List.cons_lt_cons_iff.2 (.inr ⟨e,
          ih b s t (fun x hx => hb x (List.mem_cons_of_mem _ hx)) h'⟩)

theorem enumMember_lt {a b : String} (h : a < b) (hb : ∀ x ∈ b.toList, ' ' < x) :
    enumMember a < enumMember b := by
  change a.toList < b.toList at h
  change (enumMember a).toList < (enumMember b).toList
  have e : ∀ v : String, (enumMember v).toList =
      ' ' :: ' ' :: (v.toList ++ ' ' :: ("= \"".toList ++ v.toList ++ "\",".toList)) := by
    intro v
    have e1 : "  ".toList = [' ', ' '] := by decide
    have e2 : " = \"".toList = ' ' :: "= \"".toList := by decide
    simp only [enumMember, String.toList_append, e1, e2]
    simp
  rw [e, e]
  refine List.cons_lt_cons_iff.2 (.inr ⟨rfl, List.cons_lt_cons_iff.2 (.inr ⟨rfl, ?_⟩)⟩)
  exact lt_append_of_lt _ _ _ _ _ hb h

theorem insertBy_map (f : String → String) (x : String) (l : List String) :
    insertBy id (f x) (l.map f) = (insertBy f x l).map f := by
  induction l with
  | nil => rfl
  | cons y l ih =>
    simp only [List.map_cons, insertBy, id_eq]
    split
    · rfl
    · rw [ih]; rfl

theorem sortStr_map (f : String → String) (l : List String) :
    sortStr (l.map f) = (sortBy f l).map f := by
  induction l with
  | nil => rfl
  | cons x l ih =>
    have : sortBy id (l.map f) = (sortBy f l).map f := ih
    simp only [sortStr, List.map_cons, sortBy, this, insertBy_map]

/-- C60: the declaration of an enum has exactly one member `V = "V"` per schema value, and the members
are in the order of the values. -/
theorem C60_enum_members (n : String) (doc : Option String) (values : List String) :
    DeclaresEnum n doc values (enumDefFromType n doc values) := by
  refine ⟨sortBy enumMember values, sortBy_perm _ _, ?_, ?_⟩
  · intro hc
    refine (sortBy_sorted enumMember values).imp_of_mem ?_
    intro a b ha hb hab
    by_cases h : a ≤ b
    · exact h
    · exfalso
      have hlt : b < a := String.not_le.1 h
      exact (String.not_le.2 (enumMember_lt hlt (hc a ((sortBy_perm _ _).mem_iff.1 ha)))) hab
  · simp only [enumDefFromType]
    rw [show (fun v : String => "  " ++ v ++ " = \"" ++ v ++ "\",") = enumMember from rfl, sortStr_map]

example : enumDefFromType "Role" none ["GUEST", "ADMIN", "ADM"] =
    "export enum Role {\n  ADM = \"ADM\",\n  ADMIN = \"ADMIN\",\n  GUEST = \"GUEST\",\n}" ∧
    ∀ v ∈ ["GUEST", "ADMIN", "ADM"], ∀ c ∈ v.toList, ' ' < c := by decide

/-! ### C30: what is declared -/

theorem forall₂_of_map_ok {ε α β : Type} (f : α → Except ε β) : ∀ (l : List α) (bs : List β),
    l.map f = bs.map .ok → List.Forall₂ (fun a b => f a = .ok b) l bs := by
  intro l
  induction l with
  | nil => intro bs h; cases bs with
    | nil => exact .nil
    | cons b bs => simp at h
  | cons a l ih => intro bs h; cases bs with
    | nil => simp at h
    | cons b bs =>
      simp only [List.map_cons, List.cons.injEq] at h
      exact .cons h.1 (ih bs h.2)

theorem inputDefFromType_ok {name : String} {fields : FieldsLookup} {text : String}
    (h : inputDefFromType ω cfg name fields = .ok text) : DeclaresInput cfg name fields text := by
  unfold inputDefFromType at h
  simp only at h
  split at h
  · simp at h
  · rename_i fs hfs
    injection h with h
    refine ⟨sortBy Prod.fst (ω.perm ["typescript.rs:100"] fields), fs, ?_, ?_, ?_, h.symm⟩
    · exact (sortBy_perm _ _).trans (ω.isPerm _ _)
    · exact sortBy_sorted Prod.fst _
    · exact forall₂_of_map_ok _ _ _ ((seqE_ok_iff _ _).1 hfs)

theorem inputField_allowed_iff (k : String) (f : SField) :
    (∃ line, inputFieldDef cfg k f = .ok line) ↔ InputFieldAllowed f := by
  unfold inputFieldDef fromInputDefFieldDef InputFieldAllowed
  cases f.type.definition <;> simp

theorem inputDefFromType_ok_iff (name : String) (fields : FieldsLookup) :
    (∃ text, inputDefFromType ω cfg name fields = .ok text) ↔
      ∀ e ∈ fields, InputFieldAllowed e.2 := by
  unfold inputDefFromType
  simp only
  cases hs : seqE ((sortBy Prod.fst (ω.perm ["typescript.rs:100"] fields)).map
      (fun e => inputFieldDef cfg e.1 e.2)) with
  | error e =>
    simp only [reduceCtorEq, exists_false, false_iff]
    intro hall
    have : ∃ fs, seqE ((sortBy Prod.fst (ω.perm ["typescript.rs:100"] fields)).map
        (fun e => inputFieldDef cfg e.1 e.2)) = .ok fs := by
      clear hs
      have hall' : ∀ e ∈ sortBy Prod.fst (ω.perm ["typescript.rs:100"] fields),
          InputFieldAllowed e.2 := by
        intro e he
        exact hall e (((sortBy_perm _ _).trans (ω.isPerm _ _)).mem_iff.1 he)
      revert hall'
      generalize sortBy Prod.fst (ω.perm ["typescript.rs:100"] fields) = l
      intro hall'
      induction l with
      | nil => exact ⟨[], rfl⟩
      | cons e l ih =>
        obtain ⟨fs, h⟩ := ih (fun e' he' => hall' e' (List.mem_cons_of_mem _ he'))
        obtain ⟨line, hl⟩ := (inputField_allowed_iff cfg e.1 e.2).2 (hall' e (List.mem_cons_self ..))
        exact ⟨line :: fs, by simp only [List.map_cons, hl, seqE, h]⟩
    obtain ⟨fs, h⟩ := this
    rw [h] at hs; simp at hs
  | ok fs =>
    simp only [Except.ok.injEq, exists_eq', true_iff]
    intro e he
    have hm : e ∈ sortBy Prod.fst (ω.perm ["typescript.rs:100"] fields) :=
      ((sortBy_perm _ _).trans (ω.isPerm _ _)).mem_iff.2 he
    have := (seqE_ok_iff _ _).1 hs
    have h2 : inputFieldDef cfg e.1 e.2 ∈ fs.map Except.ok := by
      rw [← this]
      exact List.mem_map.2 ⟨e, hm, rfl⟩
    obtain ⟨line, _, hl⟩ := List.mem_map.1 h2
    exact (inputField_allowed_iff cfg e.1 e.2).1 ⟨line, hl.symm⟩

theorem globalDef_ok_iff (n : String) (t : SType) (ht : schema.getType n = some t) :
    (∃ text, globalDef ω cfg n t = .ok text) ↔ ValidGlobal schema n := by
  have key : ∀ name fields, t.definition = .inputObject name fields →
      ((∀ e ∈ fields, InputFieldAllowed e.2) ↔ ∀ f, InputFieldOf t f → InputFieldAllowed f) := by
    intro name fields hd
    constructor
    · rintro h f ⟨name', fields', k, hd', hm⟩
      rw [hd] at hd'
      injection hd' with _ e
      subst e
      exact h _ hm
    · rintro h ⟨k, f⟩ hm
      exact h f ⟨name, fields, k, hd, hm⟩
  unfold globalDef ValidGlobal
  rw [ht]
  simp only [Option.some.injEq, exists_eq_left']
  cases hd : t.definition with
  | inputObject name fields =>
    simp only
    rw [inputDefFromType_ok_iff, key name fields hd]
    simp
  | enum vs =>
    have : ∀ f, ¬ InputFieldOf t f := not_inputField (by simp [hd])
    simp [this]
  | _ => simp

theorem globalDef_ok (hreg : NamedAsRegistered schema) {n : String} {t : SType} {text : String}
    (ht : schema.getType n = some t) (h : globalDef ω cfg n t = .ok text) :
    DeclaresGlobal cfg schema n text := by
  refine ⟨t, ht, ?_⟩
  unfold globalDef at h
  cases hd : t.definition with
  | inputObject name fields =>
    rw [hd] at h
    simp only at h
    have := hreg n t name fields ht hd
    subst this
    exact .inr ⟨name, fields, rfl, inputDefFromType_ok ω cfg h⟩
  | enum vs =>
    rw [hd] at h
    simp only [Except.ok.injEq] at h
    subst h
    exact .inl ⟨vs, rfl, C60_enum_members _ _ _⟩
  | _ => rw [hd] at h; simp at h

/-- What the collected map contains. -/
theorem collected {m : NameToType}
    (h : globalNameLoop ω fuel schema (ω.perm ["typescript.rs:201"] used) [] = some (.ok m)) :
    GoodMap schema m ∧ ∀ k, k ∈ m.keys ↔ GlobalName schema used k := by
  have G0 : GoodMap schema ([] : NameToType) := ⟨by simp [AMap.get?], by simp [AMap.keys]⟩
  obtain ⟨g, _, hk⟩ := (globalNameLoop_spec ω fuel schema _ [] G0).1 m h
  refine ⟨g, ?_⟩
  intro k
  rw [hk, globalName_iff]
  simp [AMap.keys, (ω.isPerm ["typescript.rs:201"] used).mem_iff]

theorem lt_of_le_nodup {V : Type} {l : List (String × V)} (h : l.Pairwise (fun a b => a.1 ≤ b.1))
    (hn : (l.map Prod.fst).Nodup) : (l.map Prod.fst).Pairwise (fun a b => a < b) := by
  rw [List.pairwise_map]
  rw [List.Nodup, List.pairwise_map] at hn
  refine (h.and hn).imp ?_
  rintro a b ⟨h1, h2⟩
  by_cases hlt : a.1 < b.1
  · exact hlt
  · exact absurd (str_le_antisymm h1 (String.not_lt.1 hlt)) h2

/-- C30 for the text: the generated globals declare, in name order and once each, exactly the types
reachable from the used names. -/
theorem C30_globals_text (hreg : NamedAsRegistered schema) (text : String)
    (h : compileGlobals ω fuel cfg schema used = some (.ok text)) :
    ∃ names decls : List String, names.Pairwise (fun a b => a < b) ∧
      (∀ n, n ∈ names ↔ GlobalName schema used n) ∧
      List.Forall₂ (DeclaresGlobal cfg schema) names decls ∧
      text = generatedHeader ++ joinWith "\n\n" decls := by
  unfold compileGlobals globalTypesFromNames at h
  cases hl : globalNameLoop ω fuel schema (ω.perm ["typescript.rs:201"] used) [] with
  | none => simp [hl] at h
  | some r =>
    cases r with
    | error e => simp [hl] at h
    | ok m =>
      simp only [hl] at h
      cases hs : seqE ((sortBy Prod.fst (ω.perm ["typescript.rs:209"] m)).map
          (fun e => globalDef ω cfg e.1 e.2)) with
      | error e => rw [hs] at h; simp at h
      | ok defs =>
        rw [hs] at h
        simp only [Option.some.injEq, Except.ok.injEq] at h
        obtain ⟨G, hk⟩ := collected ω fuel schema used hl
        have hp : (sortBy Prod.fst (ω.perm ["typescript.rs:209"] m)).Perm m :=
          (sortBy_perm _ _).trans (ω.isPerm _ _)
        refine ⟨(sortBy Prod.fst (ω.perm ["typescript.rs:209"] m)).map Prod.fst, defs, ?_, ?_, ?_, ?_⟩
        · exact lt_of_le_nodup (sortBy_sorted _ _) ((hp.map _).nodup_iff.2 G.nodup)
        · intro n
          rw [(hp.map _).mem_iff, ← hk]; rfl
        · rw [List.forall₂_map_left_iff]
          have h2 := forall₂_of_map_ok _ _ _ ((seqE_ok_iff _ _).1 hs)
          have hall : ∀ e ∈ sortBy Prod.fst (ω.perm ["typescript.rs:209"] m),
              schema.getType e.1 = some e.2 := by
            intro e he
            exact G.agrees _ _ (AMap.get?_of_mem G.nodup (hp.mem_iff.1 he))
          clear hs h hl hp hk
          revert h2 hall
          generalize sortBy Prod.fst (ω.perm ["typescript.rs:209"] m) = l
          intro h2 hall
          induction h2 with
          | nil => exact .nil
          | cons hab _ ih =>
            exact .cons (globalDef_ok ω cfg schema hreg (hall _ (List.mem_cons_self ..)) hab)
              (ih (fun e he => hall e (List.mem_cons_of_mem _ he)))
        · exact h.symm

/-- Every schema loaded from introspection data registers input objects under their name. -/
theorem ofJson_namedAsRegistered {j : JSchema} {s : Schema} (h : Schema.ofJson j = .ok s) :
    NamedAsRegistered s := by
  intro n t name fields ht hd
  have := C05_lookup_returns_what_the_document_says j s h n
  split at this
  · rename_i jt hj
    obtain ⟨st, h1, _, h2⟩ := this
    rw [ht] at h1
    injection h1 with e
    subst e
    rw [hd] at h2
    cases h2
    clear h ht hd
    revert hj
    unfold lastNamed
    intro hj
    have := List.mem_of_getLast? hj
    simpa using (List.mem_filter.1 this).2
  · rw [ht] at this; simp at this

/-- C30 for the file: if the globals file is written, it contains the declarations of exactly the
reachable types and no other file changes. -/
theorem C30_globals_file (ccfg : CompileConfig) (hreg : NamedAsRegistered schema) (w w' : World)
    (root : Path) (hne : used ≠ [])
    (h : compileGlobalTypesFile ω fuel ccfg schema w root used = some (.ok (), w')) :
    ∃ names decls : List String, names.Pairwise (fun a b => a < b) ∧
      (∀ n, n ∈ names ↔ GlobalName schema used n) ∧
      List.Forall₂ (DeclaresGlobal ccfg.toTsConfig schema) names decls ∧
      w'.disk (w.resolve (globalsPath ccfg root)) =
        .ok (generatedHeader ++ joinWith "\n\n" decls) ∧
      ∀ id, id ≠ w.resolve (globalsPath ccfg root) → w'.disk id = w.disk id := by
  unfold compileGlobalTypesFile at h
  rw [if_neg (by simpa using hne)] at h
  cases hc : compileGlobals ω fuel ccfg.toTsConfig schema used with
  | none => rw [hc] at h; simp at h
  | some r =>
    cases r with
    | error e => rw [hc] at h; simp at h
    | ok text =>
      rw [hc] at h
      simp only [World.write] at h
      cases he : w.writeErr (w.resolve (globalsPath ccfg root)) with
      | some p => obtain ⟨e, l⟩ := p; rw [he] at h; cases l <;> simp at h
      | none =>
        rw [he] at h
        simp only [Option.some.injEq, Prod.mk.injEq, true_and] at h
        subst h
        obtain ⟨names, decls, h1, h2, h3, h4⟩ := C30_globals_text ω fuel _ schema used hreg text hc
        refine ⟨names, decls, h1, h2, h3, ?_, ?_⟩
        · simp [World.put, h4]
        · intro id hid; simp [World.put, hid]

/-- C30: nothing is written when no global type is used. -/
theorem C30_nothing_to_write (ccfg : CompileConfig) (w : World) (root : Path) :
    compileGlobalTypesFile ω fuel ccfg schema w root [] = some (.ok (), w) := rfl

/-- The demo query uses `Filter`, which reaches `Page` and `Role`. -/
theorem demo_filter : Demo.schema.getType "Filter" = some ⟨none, .inputObject "Filter"
    [("role", ⟨"role", none, ⟨"Role", .nullable, .enum, []⟩, false⟩),
     ("page", ⟨"page", none, ⟨"Page", .none, .inputObject, []⟩, false⟩)]⟩ := rfl

example : NamedAsRegistered Demo.schema :=
  ofJson_namedAsRegistered (j := Demo.json) rfl

example : GlobalName Demo.schema ["Filter"] "Role" ∧ GlobalName Demo.schema ["Filter"] "Page" ∧
    ¬ GlobalName Demo.schema ["Page"] "Role" := by
  refine ⟨?_, ?_, ?_⟩
  · exact .field (.used (List.mem_singleton.2 rfl) demo_filter)
      ⟨_, _, "role", rfl, List.mem_cons_self ..⟩ (.inl rfl)
  · exact .field (.used (List.mem_singleton.2 rfl) demo_filter)
      ⟨_, _, "page", rfl, List.mem_cons_of_mem _ (List.mem_cons_self ..)⟩ (.inr rfl)
  · rw [← (collected .inOrder 3 Demo.schema ["Page"] (m := [("Page", ⟨none, .inputObject "Page"
      [("size", ⟨"size", none, ⟨"Int", .nullable, .scalar .int, []⟩, false⟩)]⟩)])
      rfl).2]
    decide

example : (compileGlobalTypesFile .reversed 3 Demo.cfg Demo.schema Demo.world ⟨true, ["r"]⟩
    ["Filter"]).map (fun r => (r.1.toOption, (r.2.disk "/r/globals.ts").toOption)) =
    some (some (), some ("/* eslint-disable */\n// This file was automatically generated and should " ++
      "not be edited.\n\nexport type Filter = {\n  page: Page;\n  role?: Role | null;\n};\n\n" ++
      "export type Page = {\n  size?: number | null;\n};\n\n/**\n * Roles\n */\nexport enum Role {\n" ++
      "  ADMIN = \"ADMIN\",\n  GUEST = \"GUEST\",\n}")) := by decide +kernel

/-! ### C32: when writing fails -/

theorem collected_bad {e : TsError}
    (h : globalNameLoop ω fuel schema (ω.perm ["typescript.rs:201"] used) [] = some (.error e)) :
    ∃ n, GlobalName schema used n ∧ ¬ ValidGlobal schema n := by
  have G0 : GoodMap schema ([] : NameToType) := ⟨by simp [AMap.get?], by simp [AMap.keys]⟩
  obtain ⟨u, hu, hbad⟩ := (globalNameLoop_spec ω fuel schema _ [] G0).2 e h
  rw [(ω.isPerm ["typescript.rs:201"] used).mem_iff] at hu
  rcases hbad with hnone | ⟨t, ht, hb⟩
  · refine ⟨u, .used hu, ?_⟩
    rintro ⟨t, ht, _⟩
    rw [hnone] at ht; simp at ht
  · exact bad_invalid hb u (.used hu) ht (.used hu ht)

/-- C32 for the text: if generating the globals returns, it succeeds exactly if every reachable global
type is valid. -/
theorem C32_globals_ok_iff (r : Except TsError String)
    (h : compileGlobals ω fuel cfg schema used = some r) :
    (∃ text, r = .ok text) ↔ ∀ n, GlobalName schema used n → ValidGlobal schema n := by
  unfold compileGlobals globalTypesFromNames at h
  cases hl : globalNameLoop ω fuel schema (ω.perm ["typescript.rs:201"] used) [] with
  | none => simp [hl] at h
  | some r0 =>
    cases r0 with
    | error e =>
      simp only [hl, Option.some.injEq] at h
      subst h
      simp only [reduceCtorEq, exists_false, false_iff]
      obtain ⟨n, h1, h2⟩ := collected_bad ω fuel schema used hl
      exact fun hall => h2 (hall n h1)
    | ok m =>
      simp only [hl] at h
      obtain ⟨G, hk⟩ := collected ω fuel schema used hl
      have hp : (sortBy Prod.fst (ω.perm ["typescript.rs:209"] m)).Perm m :=
        (sortBy_perm _ _).trans (ω.isPerm _ _)
      have hall : ∀ e ∈ sortBy Prod.fst (ω.perm ["typescript.rs:209"] m),
          schema.getType e.1 = some e.2 := by
        intro e he
        exact G.agrees _ _ (AMap.get?_of_mem G.nodup (hp.mem_iff.1 he))
      cases hs : seqE ((sortBy Prod.fst (ω.perm ["typescript.rs:209"] m)).map
          (fun e => globalDef ω cfg e.1 e.2)) with
      | error e =>
        rw [hs] at h
        simp only [Option.some.injEq] at h
        subst h
        simp only [reduceCtorEq, exists_false, false_iff]
        intro hv
        obtain ⟨pre, post, heq⟩ := (seqE_error_iff _ _).1 hs
        have hm : (Except.error e : Except TsError String) ∈
            (sortBy Prod.fst (ω.perm ["typescript.rs:209"] m)).map
              (fun e => globalDef ω cfg e.1 e.2) := by
          rw [heq]; simp
        obtain ⟨x, hx, hxe⟩ := List.mem_map.1 hm
        have hxk : x.1 ∈ m.keys := List.mem_map.2 ⟨x, hp.mem_iff.1 hx, rfl⟩
        obtain ⟨text, ht⟩ := (globalDef_ok_iff ω cfg schema x.1 x.2 (hall x hx)).2
          (hv _ ((hk _).1 hxk))
        rw [hxe] at ht; simp at ht
      | ok defs =>
        rw [hs] at h
        simp only [Option.some.injEq] at h
        subst h
        simp only [Except.ok.injEq, exists_eq', true_iff]
        intro n hn
        rw [← hk] at hn
        obtain ⟨e, he, rfl⟩ := List.mem_map.1 hn
        have he' := hp.mem_iff.2 he
        rw [← globalDef_ok_iff ω cfg schema e.1 e.2 (hall e he')]
        have h2 : globalDef ω cfg e.1 e.2 ∈ defs.map Except.ok := by
          rw [← (seqE_ok_iff _ _).1 hs]
          exact List.mem_map.2 ⟨e, he', rfl⟩
        obtain ⟨line, _, hl⟩ := List.mem_map.1 h2
        exact ⟨line, hl.symm⟩

/-- C32: if some reachable global type is missing, is neither an enum nor an input object, or has a field
that is not allowed in an input object, then generating the globals file, if it returns, reports an error
and leaves every file alone. -/
theorem C32_invalid_global_is_an_error (ccfg : CompileConfig) (w w' : World) (root : Path)
    (r : Except Msg Unit) (n : String) (hn : GlobalName schema used n) (hbad : ¬ ValidGlobal schema n)
    (h : compileGlobalTypesFile ω fuel ccfg schema w root used = some (r, w')) :
    (∃ e, r = .error e) ∧ w' = w := by
  unfold compileGlobalTypesFile at h
  have hne : used ≠ [] := by
    rintro rfl
    have : ∀ t, ¬ Expanded schema [] t := by
      intro t ht
      induction ht with
      | used h => simp at h
      | sub _ _ ih => exact ih
    cases hn with
    | used h => simp at h
    | field h => exact this _ h
  rw [if_neg (by simpa using hne)] at h
  cases hc : compileGlobals ω fuel ccfg.toTsConfig schema used with
  | none => rw [hc] at h; simp at h
  | some r0 =>
    have hok := C32_globals_ok_iff ω fuel ccfg.toTsConfig schema used r0 hc
    cases r0 with
    | ok text => exact absurd (hok.1 ⟨text, rfl⟩ n hn) hbad
    | error e =>
      rw [hc] at h
      simp only [Option.some.injEq, Prod.mk.injEq] at h
      exact ⟨⟨_, h.1.symm⟩, h.2.symm⟩

/-- C32, the other direction: if all reachable global types are valid, the only possible error is a
failing write. -/
theorem C32_valid_globals_are_written (ccfg : CompileConfig) (w w' : World) (root : Path)
    (r : Except Msg Unit) (hall : ∀ n, GlobalName schema used n → ValidGlobal schema n)
    (h : compileGlobalTypesFile ω fuel ccfg schema w root used = some (r, w')) :
    r = .ok () ∨ ∃ e l, w.writeErr (w.resolve (globalsPath ccfg root)) = some (e, l) := by
  unfold compileGlobalTypesFile at h
  by_cases hne : used = []
  · subst hne
    simp only [List.isEmpty_nil, if_true, Option.some.injEq, Prod.mk.injEq] at h
    exact .inl h.1.symm
  rw [if_neg (by simpa using hne)] at h
  cases hc : compileGlobals ω fuel ccfg.toTsConfig schema used with
  | none => rw [hc] at h; simp at h
  | some r0 =>
    have hok := C32_globals_ok_iff ω fuel ccfg.toTsConfig schema used r0 hc
    obtain ⟨text, rfl⟩ := hok.2 hall
    rw [hc] at h
    simp only [World.write] at h
    cases he : w.writeErr (w.resolve (globalsPath ccfg root)) with
    | some p => exact .inr ⟨p.1, p.2, rfl⟩
    | none =>
      rw [he] at h
      simp only [Option.some.injEq, Prod.mk.injEq] at h
      exact .inl h.1.symm

/-- `User` is an object type: using it as a global is an error. -/
example : GlobalName Demo.schema ["User"] "User" ∧ ¬ ValidGlobal Demo.schema "User" ∧
    (compileGlobalTypesFile .inOrder 3 Demo.cfg Demo.schema Demo.world ⟨true, ["r"]⟩ ["User"]).isSome ∧
    ¬ ValidGlobal Demo.schema "Nope" ∧ ValidGlobal Demo.schema "Role" := by
  refine ⟨.used (List.mem_singleton.2 rfl), ?_, by decide +kernel, ?_, ?_⟩
  · rw [← globalDef_ok_iff .inOrder Demo.cfg.toTsConfig Demo.schema "User" _
      (Option.some_get (by decide +kernel : (Demo.schema.getType "User").isSome = true)).symm]
    rintro ⟨text, h⟩
    have : (globalDef .inOrder Demo.cfg.toTsConfig "User" ((Demo.schema.getType "User").get
        (by decide +kernel))).toOption = none := by decide +kernel
    rw [h] at this
    simp [Except.toOption] at this
  · rintro ⟨t, h, _⟩
    have : Demo.schema.getType "Nope" = none := by decide +kernel
    rw [this] at h; simp at h
  · exact (globalDef_ok_iff .inOrder Demo.cfg.toTsConfig Demo.schema "Role"
      ⟨some "Roles", .enum ["GUEST", "ADMIN"]⟩ rfl).1 ⟨_, rfl⟩

/-! ### C31: termination -/

/-- C31: if below the used names no infinite chain of input objects exists, generating the globals
returns. -/
theorem C31_terminates_if_well_founded
    (h : ∀ u ∈ used, ∀ t, schema.getType u = some t → Acc (SubInput schema) t) :
    ∃ N, ∀ fuel, N ≤ fuel → (compileGlobals ω fuel cfg schema used).isSome := by
  obtain ⟨N, hN⟩ := exists_bound (ω.perm ["typescript.rs:201"] used)
    (fun u N => ∀ t, schema.getType u = some t → ∀ n, N ≤ n → ∀ m,
      (addSubInputObjects ω schema n t m).isSome)
    (fun u a b hP hab t ht n hn m => hP t ht n (by omega) m)
    (by
      intro u hu
      rw [(ω.isPerm ["typescript.rs:201"] used).mem_iff] at hu
      cases ht : schema.getType u with
      | none => exact ⟨0, by simp⟩
      | some t =>
        obtain ⟨N, hN⟩ := addSub_terminates ω schema t (h u hu t ht)
        refine ⟨N, ?_⟩
        intro t' ht'
        injection ht' with e
        subst e
        exact hN)
  refine ⟨N, ?_⟩
  intro fuel hf
  have := globalNameLoop_isSome ω fuel schema (ω.perm ["typescript.rs:201"] used)
    (fun u hu t ht m => hN u hu t ht fuel hf m) []
  unfold compileGlobals globalTypesFromNames
  cases hl : globalNameLoop ω fuel schema (ω.perm ["typescript.rs:201"] used) [] with
  | none => rw [hl] at this; simp at this
  | some r =>
    cases r with
    | error e => simp
    | ok m =>
      simp only
      cases seqE ((sortBy Prod.fst (ω.perm ["typescript.rs:209"] m)).map
        (fun e => globalDef ω cfg e.1 e.2)) <;> simp

/-- C31: an infinite chain of input objects below a used name makes success impossible, whatever the
hash order. -/
theorem C31_no_success_if_not_well_founded (u : String) (t : SType) (hu : u ∈ used)
    (ht : schema.getType u = some t) (hna : ¬ Acc (SubInput schema) t) (text : String) :
    compileGlobals ω fuel cfg schema used ≠ some (.ok text) := by
  intro h
  unfold compileGlobals globalTypesFromNames at h
  cases hl : globalNameLoop ω fuel schema (ω.perm ["typescript.rs:201"] used) [] with
  | none => simp [hl] at h
  | some r =>
    cases r with
    | error e => simp [hl] at h
    | ok m =>
      exact hna (globalNameLoop_ok_acc ω fuel schema _ _ _ hl u
        ((ω.isPerm ["typescript.rs:201"] used).mem_iff.2 hu) t ht)

/-- C31: for valid global types, generating the globals returns exactly if there is no infinite chain of
input objects below the used names. -/
theorem C31_terminates_iff (hall : ∀ n, GlobalName schema used n → ValidGlobal schema n) :
    (∃ fuel, (compileGlobals ω fuel cfg schema used).isSome) ↔
      ∀ u ∈ used, ∀ t, schema.getType u = some t → Acc (SubInput schema) t := by
  constructor
  · rintro ⟨fuel, h⟩ u hu t ht
    obtain ⟨r, hr⟩ := Option.isSome_iff_exists.1 h
    obtain ⟨text, rfl⟩ := (C32_globals_ok_iff ω fuel cfg schema used r hr).2 hall
    by_cases hacc : Acc (SubInput schema) t
    · exact hacc
    · exact absurd hr (C31_no_success_if_not_well_founded ω fuel cfg schema used u t hu ht hacc text)
  · intro h
    obtain ⟨N, hN⟩ := C31_terminates_if_well_founded ω cfg schema used h
    exact ⟨N, hN N (Nat.le_refl _)⟩

theorem acc_irrefl' {α : Type} {r : α → α → Prop} {a : α} (h : Acc r a) : ¬ r a a := by
  induction h with
  | intro a _ ih => exact fun haa => ih a haa haa

/-- C31: a used input object that reaches itself through input object fields (legal in GraphQL) makes
the collection run forever. -/
theorem C31_recursive_input_never_returns (u : String) (t t0 : SType) (hu : u ∈ used)
    (ht : schema.getType u = some t)
    (hall : ∀ n, GlobalName schema used n → ValidGlobal schema n)
    (hreach : Relation.ReflTransGen (SubInput schema) t0 t)
    (hcycle : Relation.TransGen (SubInput schema) t0 t0) (ccfg : CompileConfig) (w : World)
    (root : Path) : compileGlobalTypesFile ω fuel ccfg schema w root used = none := by
  have hna : ¬ Acc (SubInput schema) t := by
    intro hacc
    have h0 : Acc (SubInput schema) t0 := by
      clear hcycle hall ht
      induction hreach with
      | refl => exact hacc
      | tail _ h ih => exact ih (hacc.inv h)
    exact acc_irrefl' h0.transGen hcycle
  unfold compileGlobalTypesFile
  rw [if_neg (by cases used <;> simp at hu ⊢)]
  cases hc : compileGlobals ω fuel ccfg.toTsConfig schema used with
  | none => rfl
  | some r =>
    obtain ⟨text, rfl⟩ := (C32_globals_ok_iff ω fuel _ schema used r hc).2 hall
    exact absurd hc (C31_no_success_if_not_well_founded ω fuel _ schema used u t hu ht hna text)

/-- `input Cond { and: [Cond!], name: String }`. -/
def Demo.cond : SType := ⟨none, .inputObject "Cond"
  [("and", ⟨"and", none, ⟨"Cond", .nullableList, .inputObject, []⟩, false⟩),
   ("name", ⟨"name", none, ⟨"String", .nullable, .scalar .string, []⟩, false⟩)]⟩

/-- A schema loaded from JSON with a recursive input object. -/
def Demo.condJson : JSchema := ⟨[⟨"INPUT_OBJECT", "Cond", none, none, some [
  fld "and" (li (nn (t "INPUT_OBJECT" "Cond"))), fld "name" (t "SCALAR" "String")], none, none⟩]⟩

example : Schema.ofJson Demo.condJson = .ok [("Cond", Demo.cond)] := rfl

/-- The recursive input object meets the hypotheses of `C31_recursive_input_never_returns`. -/
example (ccfg : CompileConfig) (w : World) (root : Path) :
    compileGlobalTypesFile ω fuel ccfg [("Cond", Demo.cond)] w root ["Cond"] = none := by
  have ht : Schema.getType [("Cond", Demo.cond)] "Cond" = some Demo.cond := rfl
  have hs : SubInput [("Cond", Demo.cond)] Demo.cond Demo.cond :=
    ⟨_, ⟨_, _, "and", rfl, List.mem_cons_self ..⟩, rfl, ht⟩
  have hexp : ∀ t, Expanded [("Cond", Demo.cond)] ["Cond"] t → t = Demo.cond := by
    intro t h
    induction h with
    | used hu ht' =>
      rw [List.mem_singleton.1 hu, ht] at ht'
      exact (Option.some.inj ht').symm
    | sub _ hsub ih =>
      subst ih
      obtain ⟨f, ⟨name, fields, k, hd, hm⟩, hk, hf⟩ := hsub
      have hd' : fields = _ := (TypeDef.inputObject.inj hd).2.symm
      subst hd'
      simp only [List.mem_cons, Prod.mk.injEq, List.not_mem_nil, or_false] at hm
      rcases hm with ⟨_, rfl⟩ | ⟨_, rfl⟩
      · rw [ht] at hf
        exact (Option.some.inj hf).symm
      · simp at hk
  refine C31_recursive_input_never_returns ω fuel _ ["Cond"] "Cond" Demo.cond Demo.cond
    (List.mem_singleton.2 rfl) ht ?_ .refl (.single hs) ccfg w root
  have hv : ValidGlobal [("Cond", Demo.cond)] "Cond" :=
    (globalDef_ok_iff .inOrder Demo.cfg.toTsConfig _ "Cond" _ ht).1 ⟨_, rfl⟩
  intro n hn
  cases hn with
  | used h => rw [List.mem_singleton.1 h]; exact hv
  | field he hf hk =>
    rw [hexp _ he] at hf
    obtain ⟨name, fields, k, hd, hm⟩ := hf
    have hd' : fields = _ := (TypeDef.inputObject.inj hd).2.symm
    subst hd'
    simp only [List.mem_cons, Prod.mk.injEq, List.not_mem_nil, or_false] at hm
    rcases hm with ⟨_, rfl⟩ | ⟨_, rfl⟩
    · exact hv
    · simp at hk

end Qlc
