import Verif.Lemmas.Names
import Verif.Props.Emit
/-
Properties C67 and C68: how generated types are named and which possible types share one; which definitions
a file is generated for.
-/
set_option autoImplicit false

namespace Qlc
open Spec

variable {schema : Schema} {frags : Frags}

/-! ### C67 -/

/-- **C67.** Generated types are named after the position in the response: the whole document's type after
the document, the type below a response key after the type it is in and the key.  The possible object types
at a position share one type unless one of them has a response key of its own; those get a type named after
the object type, and the others share the type `$$other`.  At every position, to any depth. -/
theorem C67_names_follow_the_response (ω : Hash) (fuel : Nat) (showDep : Bool) (cfg : TsConfig)
    (hcon : Consistent schema) (d : Definition) (op : Operation) (ws : List Warning)
    (h : Operation.compile ω fuel ⟨schema, showDep, frags⟩ d = some (.ok op, ws))
    (c : Compile) (hc : compileIr ω op cfg schema = .ok c) :
    ∃ f : TsFile, c.contents = f.text cfg.useReadonlyTypes ∧ FileFor cfg schema op f ∧
      f.name = dataName d ∧ ∀ k, Named f.decls k f.name op.collection := by
  have hal := compiled_altsNodup hcon h
  obtain ⟨h1, _, h3, _⟩ := compileIr_agrees hc
  exact ⟨_, h1, fileFor_tsFile hal hc, name_of_compiled hcon h,
    fun k => named cfg _ h3.2 k op.collection op.name hal (fun _ hd => hd)⟩

/-- **C23.** Two possible object types share a printed type exactly if neither has a response key that
another possible type lacks; with one printed type for all, exactly if all have the same response keys. -/
theorem C23_which_types_are_merged {n : String} {ps : List Complex} (hn : (ps.map Complex.name).Nodup)
    {c d : Complex} (hc : c ∈ ps) (hd : d ∈ ps) (hcd : c ≠ d) :
    ((∃ g ∈ groups n ps, c ∈ g.2 ∧ d ∈ g.2) ↔ Shared ps c ∧ Shared ps d) ∧
    ((∃ n', groups n ps = [(n', ps)]) ↔ ∀ a ∈ ps, ∀ b ∈ ps, SameProps a b) := by
  have hall : (∀ c ∈ ps, Shared ps c) ↔ ∀ a ∈ ps, ∀ b ∈ ps, SameProps a b := by
    constructor
    · intro h a ha b hb x
      exact ⟨fun hx => h a ha x hx b hb, fun hx => h b hb x hx a ha⟩
    · intro h a ha x hx b hb
      exact (h a ha b hb x).1 hx
  constructor
  · constructor
    · rintro ⟨g, hg, h1, h2⟩
      unfold groups at hg
      split at hg
      · rename_i h
        exact ⟨h c hc, h d hd⟩
      · rcases List.mem_append.1 hg with hg | hg
        · obtain ⟨e, _, rfl⟩ := List.mem_map.1 hg
          rw [List.mem_singleton] at h1 h2
          exact absurd (h1.trans h2.symm) hcd
        · split at hg
          · rw [List.mem_singleton] at hg
            subst hg
            have h1 := (List.mem_filter.1 h1).2
            have h2 := (List.mem_filter.1 h2).2
            exact ⟨by simpa using h1, by simpa using h2⟩
          · simp at hg
    · rintro ⟨h1, h2⟩
      unfold groups
      split
      · exact ⟨_, List.mem_singleton.2 rfl, hc, hd⟩
      · rw [if_pos ⟨c, hc, h1⟩]
        refine ⟨_, List.mem_append.2 (.inr (List.mem_singleton.2 rfl)), ?_, ?_⟩
        · exact List.mem_filter.2 ⟨hc, by simpa using h1⟩
        · exact List.mem_filter.2 ⟨hd, by simpa using h2⟩
  · rw [← hall]
    constructor
    · rintro ⟨n', h⟩
      unfold groups at h
      split at h
      · rename_i h'; exact h'
      · by_contra hno
        have key : ∀ g ∈ groups n ps, c ∈ g.2 → d ∈ g.2 → Shared ps c ∧ Shared ps d := by
          intro g hg h1 h2
          unfold groups at hg
          rw [if_neg hno] at hg
          rcases List.mem_append.1 hg with hg | hg
          · obtain ⟨e, _, rfl⟩ := List.mem_map.1 hg
            rw [List.mem_singleton] at h1 h2
            exact absurd (h1.trans h2.symm) hcd
          · split at hg
            · rw [List.mem_singleton] at hg
              subst hg
              have h1 := (List.mem_filter.1 h1).2
              have h2 := (List.mem_filter.1 h2).2
              exact ⟨by simpa using h1, by simpa using h2⟩
            · simp at hg
        have hg : groups n ps = [(n', ps)] := by unfold groups; rw [if_neg hno]; exact h
        refine hno (fun e he => ?_)
        have hce := (key (n', ps) (by rw [hg]; simp) hc hd).1
        by_contra hs
        have hm : (n ++ "_" ++ e.name, [e]) ∈ groups n ps := by
          unfold groups
          rw [if_neg hno]
          exact List.mem_append.2 (.inl (List.mem_map.2 ⟨e, List.mem_filter.2 ⟨he, by simpa using hs⟩, rfl⟩))
        rw [hg, List.mem_singleton] at hm
        injection hm with _ hm
        rw [← hm, List.mem_singleton] at hc hd
        exact hcd (hc.trans hd.symm)
    · intro h
      exact ⟨n, by unfold groups; rw [if_pos h]⟩

/-! ### C68 -/

theorem ofName_known {n : String} {pos : Pos} {t : VariableType}
    (h : VariableType.ofName schema n pos = .ok t) {m : String} (hm : t = .custom m) :
    (schema.getType m).isSome = true := by
  subst hm
  unfold VariableType.ofName at h
  iterate 5
    split at h
    · injection h with h; exact VariableType.noConfusion h
  split at h
  · simp at h
  · rename_i t ht
    injection h with h
    injection h with h
    rw [← h, ht]
    rfl

theorem variables_known {vars : List VarDef} {vs : List Variable}
    (h : tryBuildVariableIr schema vars = .ok (some vs)) : ∀ v ∈ vs, ∀ n, v.type = .custom n →
      (schema.getType n).isSome = true := by
  unfold tryBuildVariableIr at h
  split at h
  · simp at h
  · split at h
    · simp at h
    · rename_i us hus
      injection h with h
      injection h with h
      subst h
      have hall := (seqE_ok_iff _ _).1 hus
      intro v hv n hn
      have : Except.ok v ∈ vars.map (buildVariable schema) := by
        rw [hall]; exact List.mem_map.2 ⟨v, hv, rfl⟩
      obtain ⟨d, _, hb⟩ := List.mem_map.1 this
      unfold buildVariable at hb
      split at hb
      · simp at hb
      · split at hb
        · simp at hb
        · rename_i t ht
          injection hb with hb
          subst hb
          exact ofName_known ht hn

/-- **C68.** If every interface and union of the schema has a possible object type, a file is generated for
exactly the valid definitions: code generation adds no failures to those of validation. -/
theorem C68_generated_iff_valid (ω : Hash) (fuel : Nat) (showDep : Bool) (cfg : TsConfig)
    (hcon : Consistent schema) (hin : Inhabited schema) (d : Definition)
    (r : Except (List IrError) Operation) (ws : List Warning)
    (h : Operation.compile ω fuel ⟨schema, showDep, frags⟩ d = some (r, ws)) :
    (∃ op c, r = .ok op ∧ compileIr ω op cfg schema = .ok c) ↔
      ∃ P, rootType d = some P ∧ IsComposite schema P ∧ Valid schema frags P (itemsOf d) ∧
        ∀ v ∈ varsOf d, SupportedVarType v.type ∧ KnownTypeName schema (baseName v.type) := by
  rw [← C07_compiles_iff_valid ω fuel showDep hcon d r ws h]
  constructor
  · rintro ⟨op, _, hr, _⟩; exact ⟨op, hr⟩
  · rintro ⟨op, rfl⟩
    obtain ⟨P, hP, _⟩ := (C07_compiles_iff_valid ω fuel showDep hcon d _ ws h).1 ⟨op, rfl⟩
    obtain ⟨hPc, _, ht, hfin⟩ := compiled_tree hcon hP h
    obtain ⟨c, hc⟩ := compileIr_ok ω cfg
      (allNonempty_of_tree hcon hin (fun n => ⟨_, _, hPc, ht n⟩))
      (fun vs hvs => variables_known (by rw [← hvs]; exact (finish_ok hfin).2.2))
    exact ⟨op, c, rfl, hc⟩

/-- **C68.** In any case a generated file has no union without alternatives, which would not be
TypeScript. -/
theorem C68_no_empty_union (ω : Hash) (fuel : Nat) (showDep : Bool) (cfg : TsConfig)
    (hcon : Consistent schema) (d : Definition) (op : Operation) (ws : List Warning)
    (h : Operation.compile ω fuel ⟨schema, showDep, frags⟩ d = some (.ok op, ws))
    (c : Compile) (hc : compileIr ω op cfg schema = .ok c) :
    ∃ f : TsFile, c.contents = f.text cfg.useReadonlyTypes ∧ FileFor cfg schema op f ∧
      ∀ n alts, TsDecl.union n alts ∈ f.decls → alts ≠ [] := by
  obtain ⟨h1, _, h3, _⟩ := compileIr_agrees hc
  refine ⟨_, h1, fileFor_tsFile (compiled_altsNodup hcon h) hc, ?_⟩
  rintro n alts hd rfl
  exact h3.2 n hd

/-- Compiling succeeds, generating does not. -/
def genFails (cfg : TsConfig) (schema : Schema) (d : Definition) : Bool :=
  match Operation.compile .inOrder 9 ⟨schema, false, []⟩ d with
  | some (.ok op, []) => decide ((match compileIr .inOrder op cfg schema with
      | .ok _ => none
      | .error e => some e) = some TsError.expectedAtLeastOnePossibility)
  | _ => false

theorem genFails_iff {cfg : TsConfig} {d : Definition} (h : genFails cfg schema d = true) :
    ∃ op, Operation.compile .inOrder 9 ⟨schema, false, []⟩ d = some (.ok op, []) ∧
      compileIr .inOrder op cfg schema = .error .expectedAtLeastOnePossibility := by
  unfold genFails at h
  split at h
  · rename_i op hop
    refine ⟨op, hop, ?_⟩
    cases hc : compileIr .inOrder op cfg schema with
    | ok c => rw [hc] at h; simp at h
    | error e => rw [hc] at h; simp at h; rw [h]
  · simp at h

/-- **C68, the proviso is needed.** Selecting on an interface without implementations is valid GraphQL, but
no file is generated. -/
theorem C68_empty_interface_fails :
    Consistent Demo.voidSchema ∧ Valid Demo.voidSchema [] "Query" (itemsOf Demo.voidQuery) ∧
    ∃ op, Operation.compile .inOrder 9 ⟨Demo.voidSchema, false, []⟩ Demo.voidQuery = some (.ok op, []) ∧
      compileIr .inOrder op Demo.tsCfg Demo.voidSchema = .error .expectedAtLeastOnePossibility :=
  ⟨consistent_of_check (by decide +kernel), (valid_iff _ _).2 (by decide +kernel),
    genFails_iff (by decide +kernel)⟩

/-! ### Examples -/

/-- The demo schema meets the proviso of C68; the one of the counterexample does not. -/
example : Inhabited Demo.schema ∧ ¬ Inhabited Demo.voidSchema := by decide +kernel

/-- So a file is generated for the demo query, with any iteration order, by C68 and the validity of the query. -/
example (ω : Hash) (fuel : Nat) (r : Except (List IrError) Operation) (ws : List Warning)
    (h : Operation.compile ω fuel ⟨Demo.schema, true, Demo.ctx.fragments⟩ Demo.query = some (r, ws)) :
    ∃ op c, r = .ok op ∧ compileIr ω op Demo.tsCfg Demo.schema = .ok c :=
  (C68_generated_iff_valid ω fuel true Demo.tsCfg demo_consistent (by decide +kernel) Demo.query r ws h).2
    (by
      obtain ⟨op, ws, h⟩ := demo_compiles
      exact (C07_compiles_iff_valid .inOrder 5 true demo_consistent Demo.query (.ok op) ws h).1 ⟨op, rfl⟩)

/-- A bare alternative with these response keys, for examples. -/
def bare (T : String) (keys : List String) : Complex :=
  .mk T (keys.map (fun k => .mk k none false .none [] .typeName))

/-- `A` and `C` have the response key `x` only, which `B` has too; `B` has one of its own. -/
example : (groups "Q" [bare "A" ["x"], bare "B" ["x", "y"], bare "C" ["x"]]).map
    (fun g => (g.1, g.2.map Complex.name)) = [("Q_B", ["B"]), ("Q_$$other", ["A", "C"])] := by decide +kernel

/-- Without a common response key nothing is merged. -/
example : (groups "Q" [bare "A" ["x"], bare "B" ["y"]]).map (fun g => (g.1, g.2.map Complex.name)) =
    [("Q_A", ["A"]), ("Q_B", ["B"])] := by decide +kernel

/-- With the same response keys everything is. -/
example : (groups "Q" [bare "A" ["x", "y"], bare "B" ["y", "x"]]).map (fun g => (g.1, g.2.map Complex.name)) =
    [("Q", ["A", "B"])] := by decide +kernel

/-- The hypotheses of C23 are met by the first example. -/
example : ([bare "A" ["x"], bare "B" ["x", "y"], bare "C" ["x"]].map Complex.name).Nodup ∧
    Shared [bare "A" ["x"], bare "B" ["x", "y"], bare "C" ["x"]] (bare "A" ["x"]) ∧
    ¬ Shared [bare "A" ["x"], bare "B" ["x", "y"], bare "C" ["x"]] (bare "B" ["x", "y"]) := by decide +kernel

/-- The hypotheses of C67 are met by the demo query; its types are shown at `TsFile.text` in `Props/Emit`. -/
example : ∃ op ws c,
    Operation.compile .inOrder 5 ⟨Demo.schema, true, Demo.ctx.fragments⟩ Demo.query = some (.ok op, ws) ∧
      compileIr .inOrder op Demo.tsCfg Demo.schema = .ok c := demo_generates

end Qlc
