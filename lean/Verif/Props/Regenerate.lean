import Verif.Props.Growth
import Verif.Props.Report
import Verif.Props.EndToEnd
/-
C98: running the program again after the schema has grown.
-/
set_option autoImplicit false

namespace Qlc
open Spec

section
variable {doc doc' : JSchema} {schema schema' : Schema}

/-- What the loaded schema knows about enums and input objects. -/
theorem loaded_global_kind (h : Schema.ofJson doc = .ok schema) (n : String) :
    (∃ t, schema.getType n = some t ∧
      ((∃ vs, t.definition = .enum vs) ∨ ∃ name fields, t.definition = .inputObject name fields)) ↔
    (kindNamed doc n = some "ENUM" ∨ kindNamed doc n = some "INPUT_OBJECT") := by
  have ht := loaded_type h n
  unfold kindNamed
  cases hj : typeNamed doc n with
  | none =>
    rw [hj] at ht
    simp only at ht
    simp [ht]
  | some j =>
    rw [hj] at ht
    obtain ⟨t, hg, hd⟩ := ht
    simp only [hg, Option.some.injEq, Option.map_some]
    rcases typeDef_cases hd with ⟨hk, _, _, _, _, e⟩ | ⟨hk, _, _, _, _, _, _, e⟩ | ⟨hk, _, _, e⟩ | h' | h' | h'
    · rw [hk]; simp [e]
    · rw [hk]; simp [e]
    · rw [hk]; simp [e]
    · obtain ⟨hk, m, e⟩ := h'
      rw [hk]; simp [e]
    · obtain ⟨hk, vs, _, e⟩ := h'
      rw [hk]; simp [e]
    · obtain ⟨hk, e⟩ := h'
      rw [hk]; simp [e]

/-- With valid input types all globals are valid if the used ones are enums and input objects. -/
theorem globals_valid (hs : Schema.ofJson doc = .ok schema) (hv : ValidInputs doc) {used : List String}
    (hu : ∀ n ∈ used, kindNamed doc n = some "ENUM" ∨ kindNamed doc n = some "INPUT_OBJECT") (n : String)
    (h : GlobalName schema used n) : ValidGlobal schema n := by
  have hk : kindNamed doc n = some "ENUM" ∨ kindNamed doc n = some "INPUT_OBJECT" := by
    cases h with
    | used h => exact hu n h
    | field he hf hd =>
      obtain ⟨m, hm⟩ := expanded_get he
      obtain ⟨k, _, _, _, _, h1, h2, h3⟩ := inputFieldOf_named hs hv hm hf
      rcases hd with hd | hd
      · rw [h1, h2 hd]; exact .inl rfl
      · rw [h1, h3.1 hd]; exact .inr rfl
  obtain ⟨t, ht, hd⟩ := (loaded_global_kind hs n).2 hk
  refine ⟨t, ht, hd, ?_⟩
  intro f hf
  obtain ⟨nm, fields, key, hdef, hmem⟩ := hf
  obtain ⟨_, _, _, hget⟩ := loaded_input hs ht hdef
  obtain ⟨j, h1, h2⟩ := hget _ _ hmem
  obtain ⟨k, ty, g1, g2, g3, g4, g5, g6, g7⟩ := input_field hv h1 h2
  unfold InputFieldAllowed
  rcases g7 with ⟨_, hd'⟩ | ⟨_, hd'⟩ | ⟨_, hd'⟩ <;> rw [hd'] <;> simp

end

section
variable {ext : Ext} {cfg : CompileConfig} {schema schema' : Schema} {w : World} {p : Path}

/-- A file that generated a text generates the same text after the schema has grown. -/
theorem generate_grown {doc doc' : JSchema} (hv : ValidDoc doc) (hv' : ValidDoc doc')
    (hs : Schema.ofJson doc = .ok schema) (hs' : Schema.ofJson doc' = .ok schema') (hg : Grows doc doc')
    (hh : HashProof ext schema w cfg p) {ω ω' : Hash}
    {fuel fuel' : Nat} {ms : List Msg} {c : Compile} {y : Except (List Msg) (List Msg × Compile)}
    (h : generateFile ω fuel ext cfg schema w p = some (.done (.ok (ms, c))))
    (h' : generateFile ω' fuel' ext cfg schema' w p = some (.done y)) :
    ∃ ms', y = .ok (ms', c) ∧ ((∀ m ∈ ms, m.level = .compileWarning) → ∀ m ∈ ms', m.level = .compileWarning) := by
  have SG := grows_loaded hv hv' hs hs' hg
  obtain ⟨contents, d, st, op, ws, G, rfl⟩ := (generateFile_ok ω fuel ext cfg schema w p ms c).1 h
  obtain ⟨hu, hfr, hnd⟩ := hh contents d G.readable G.parses
  unfold generateFile readGraphqlFile at h'
  simp only [G.readable, (parse_ok _ _ p _).2 G.parses] at h'
  cases hi : addImported w cfg fuel' p contents ⟨[], []⟩ with
  | none => simp [hi] at h'
  | some x =>
    have := C36_outcome_unique w cfg fuel fuel' p contents _ _ _ G.scanned hi
    subst this
    have s1 := inScope_foreign ext cfg w p ω G.scanned hu
    have s2 := inScope_foreign ext cfg w p ω' G.scanned hu
    have hget := inScope_get ext cfg w p s1 s2
    obtain ⟨hfrv, hone⟩ := hfr _ s1
    simp only [hi] at h'
    obtain ⟨P, hP, hcomp, hval, hvars⟩ := (C07_compiles_iff_valid ω fuel _ SG.con d _ ws G.valid).1 ⟨op, rfl⟩
    have hvalid : ∀ s ∈ [itemsOf d], Valid schema (parseForeignFragments ω ext p st.imports st.messages).1 P s := by
      intro s hs; rw [List.mem_singleton] at hs; subst hs; exact hval
    cases hc : Operation.compile ω' fuel' ⟨schema', cfg.showDeprecationWarnings,
        (parseForeignFragments ω' ext p st.imports st.messages).1⟩ d with
    | none => simp [hc] at h'
    | some a =>
      obtain ⟨r, ws'⟩ := a
      obtain ⟨ws₁, hc₁, ht₁⟩ := C97_growth_keeps_text ω ω' fuel cfg.showDeprecationWarnings
        cfg.showDeprecationWarnings cfg.toTsConfig hv hv' hs hs' hg hfrv d op ws P hP G.valid (hone P hP) hnd
      obtain ⟨rfl, _⟩ := compile_det schema' ω' ω' fuel fuel' cfg.showDeprecationWarnings cfg.toTsConfig hget SG.con'
        (SG.fragsValid hfrv) d (fun P' hP' => by
          rw [hP] at hP'
          injection hP' with hP'
          subst hP'
          exact SG.oneTypePerKey hfrv hcomp hvalid (hone P hP)) hnd hc₁ hc
      rw [G.generated] at ht₁
      simp only [hc, ← ht₁, Option.some.injEq, PanicOr.done.injEq] at h'
      refine ⟨_, h'.symm, ?_⟩
      intro hl m hm
      rcases List.mem_append.1 hm with hm | hm
      · exact hl m (List.mem_append_left _ ((foreign_messages_perm ext p ω ω' st.imports st.messages).mem_iff.2 hm))
      · obtain ⟨x, _, rfl⟩ := List.mem_map.1 hm
        cases x <;> rfl

end

section
variable {ext : Ext} {cfg : CompileConfig} {schema schema' : Schema} {w : World} {root : Entry} {rootPath : Path}
  {doc doc' : JSchema}

/-- The same for a whole compilation of a file. -/
theorem compileFile_grown (hv : ValidDoc doc) (hv' : ValidDoc doc') (hs : Schema.ofJson doc = .ok schema)
    (hs' : Schema.ofJson doc' = .ok schema') (hg : Grows doc doc') {p : Path} (hh : HashProof ext schema w cfg p)
    {ω ω' : Hash} {fuel fuel' : Nat} {r r' : CompileResult} {rep : CompileReport}
    (h : compileFile ω fuel ext cfg schema w p = some (.done r)) (hrep : r.result = .ok rep)
    (h' : compileFile ω' fuel' ext cfg schema' w p = some (.done r')) :
    r'.world = r.world ∧ ∃ rep', r'.result = .ok rep' ∧ rep'.globalTypesUsed = rep.globalTypesUsed ∧
      ((∀ m ∈ rep.messages, m.level = .compileWarning) → ∀ m ∈ rep'.messages, m.level = .compileWarning) := by
  unfold compileFile at h h'
  cases g : generateFile ω fuel ext cfg schema w p with
  | none => simp [g] at h
  | some x =>
    cases x with
    | panic => simp [g] at h
    | done y =>
      cases y with
      | error es =>
        simp only [g, Option.some.injEq, PanicOr.done.injEq] at h
        subst h
        simp at hrep
      | ok a =>
        obtain ⟨ms, c⟩ := a
        cases g' : generateFile ω' fuel' ext cfg schema' w p with
        | none => simp [g'] at h'
        | some x' =>
          cases x' with
          | panic => simp [g'] at h'
          | done y' =>
            obtain ⟨ms', rfl, hl⟩ := generate_grown hv hv' hs hs' hg hh g g'
            simp only [g] at h
            simp only [g'] at h'
            cases hw : w.write (outputPath p) c.contents with
            | mk e w₁ =>
              cases e with
              | some e =>
                simp only [hw, Option.some.injEq, PanicOr.done.injEq] at h
                subst h
                simp at hrep
              | none =>
                simp only [hw, Option.some.injEq, PanicOr.done.injEq] at h h'
                subst h h'
                have hrep := Except.ok.inj hrep
                subst hrep
                exact ⟨rfl, _, rfl, rfl, hl⟩

/-- **C98.** Run the program with status 0, let the schema grow, and run it again over the same files, under
other hash orders and schedules: the second run ends with status 0 too, and leaves the same files except the
globals file. -/
theorem C98_regeneration {ω₁ ω₂ : Path → Hash} {ω₁' ω₂' : Hash} {fuel₁ fuel₂ threads₁ threads₂ : Nat}
    {s₁ s₂ : PoolSt World} {ms₁ ms₂ : List Msg} {w₁ w₂ : World} (paint : Paint)
    (hr : NoOutputRead w cfg root) (hd : OutputsDistinct w root) (hg : GlobalsApart w cfg rootPath root)
    (hv : ValidDoc doc) (hv' : ValidDoc doc') (hi : ValidInputs doc') (hs : Schema.ofJson doc = .ok schema)
    (hs' : Schema.ofJson doc' = .ok schema') (hgrow : Grows doc doc')
    (hh : ∀ p, FoundIn root p → HashProof ext schema w cfg p)
    (R₁ : RunsTo ω₁ ω₁' fuel₁ ext cfg schema rootPath root threads₁ w s₁ ms₁ w₁)
    (R₂ : RunsTo ω₂ ω₂' fuel₂ ext cfg schema' rootPath root threads₂ w s₂ ms₂ w₂)
    (h0 : (printExitInfo paint ms₁).code = 0) :
    (printExitInfo paint ms₂).code = 0 ∧
    (∀ id, id ≠ globalsId w cfg rootPath → w₂.disk id = w₁.disk id) ∧
    ∀ g, UsedGlobal ω₂ fuel₂ ext cfg schema' w root g ↔ UsedGlobal ω₁ fuel₁ ext cfg schema w root g := by
  have A := after_run hr hd hg R₁
  have B := after_run hr hd hg R₂
  have F := (C74_exit_status hr hd hg R₁ paint).1 h0
  -- each file by itself
  have file : ∀ p, FoundIn root p →
      (poolCompile ω₂ fuel₂ ext cfg schema' w p).2 = (poolCompile ω₁ fuel₁ ext cfg schema w p).2 ∧
      globalsOfFile ω₂ fuel₂ ext cfg schema' w p = globalsOfFile ω₁ fuel₁ ext cfg schema w p ∧
      ∃ ms gs, CompilesWith ω₂ fuel₂ ext cfg schema' w p ms gs ∧ ∀ m ∈ ms, m.level = .compileWarning := by
    intro p hp
    obtain ⟨msgs, gs, ⟨r, hc, hres⟩, hlev⟩ := F.files p hp
    have hok : ∃ rep, r.result = .ok rep ∧ msgs = rep.messages := by
      rcases hres with ⟨rep, h, hm, _⟩ | ⟨h, _⟩
      · exact ⟨rep, h, hm⟩
      · obtain ⟨m, hm, hl⟩ := failed_has_error hc h
        exact absurd (hlev m hm) hl
    obtain ⟨rep, hrep, rfl⟩ := hok
    obtain ⟨gs', msgs', e⟩ := B.returned p hp
    obtain ⟨r', hc', _⟩ := compilesWith_of_done e
    obtain ⟨hw, rep', hrep', hgl, hl⟩ := compileFile_grown hv hv' hs hs' hgrow (hh p hp) hc hrep hc'
    have e1 : poolCompile ω₁ fuel₁ ext cfg schema w p = (.done rep.globalTypesUsed rep.messages, r.world) := by
      simp [poolCompile, hc, hrep]
    have e2 : poolCompile ω₂ fuel₂ ext cfg schema' w p = (.done rep'.globalTypesUsed rep'.messages, r'.world) := by
      simp [poolCompile, hc', hrep']
    refine ⟨by rw [e1, e2, hw], by unfold globalsOfFile; rw [e1, e2]; exact hgl, rep'.messages, rep'.globalTypesUsed,
      ⟨r', hc', .inl ⟨rep', hrep', rfl, rfl⟩⟩, hl hlev⟩
  have hused : ∀ g, UsedGlobal ω₂ fuel₂ ext cfg schema' w root g ↔ UsedGlobal ω₁ fuel₁ ext cfg schema w root g := by
    intro g
    rw [← usedGlobal_iff A, ← usedGlobal_iff B, A.used, B.used]
    exact exists_congr (fun p => and_congr_right (fun hp => by rw [(file p hp).2.1]))
  refine ⟨(C74_exit_status hr hd hg R₂ paint).2 ⟨F.directories, fun p hp => (file p hp).2.2, ?_, ?_⟩, ?_, hused⟩
  · intro used hu n hn
    have hu₁ : ∀ g, g ∈ used ↔ UsedGlobal ω₁ fuel₁ ext cfg schema w root g := fun g => by rw [hu, hused]
    refine globals_valid hs' hi ?_ n hn
    intro m hm
    obtain ⟨t, ht, hd, _⟩ := F.globals used hu₁ m (.used hm)
    rcases (loaded_global_kind hs m).1 ⟨t, ht, hd⟩ with hk | hk
    · exact .inl (hgrow.kinds _ _ hk)
    · exact .inr (hgrow.kinds _ _ hk)
  · rintro ⟨g, hg'⟩
    exact F.written ⟨g, (hused g).1 hg'⟩
  · intro id hid
    by_cases ho : IsOutput w root id
    · obtain ⟨p, hp, rfl⟩ := ho
      rw [A.outputs p hp, B.outputs p hp, (file p hp).1]
    · rw [A.others id ho hid, B.others id ho hid]

end

section
variable {schema schema' : Schema}

/-- Schemas that agree on the global types of one have the same global types. -/
theorem globalName_same {used : List String}
    (h : ∀ n, GlobalName schema used n → schema'.getType n = schema.getType n) (n : String) :
    GlobalName schema' used n ↔ GlobalName schema used n := by
  have e1 : ∀ t, Expanded schema used t → Expanded schema' used t := by
    intro t ht
    induction ht with
    | used hu hg => exact .used hu (by rw [h _ (.used hu)]; exact hg)
    | sub he hsub ih =>
      obtain ⟨f, hf, hd, hg⟩ := hsub
      exact .sub ih ⟨f, hf, hd, by rw [h _ (.field he hf (.inr hd))]; exact hg⟩
  have e2 : ∀ t, Expanded schema' used t → Expanded schema used t := by
    intro t ht
    induction ht with
    | used hu hg => exact .used hu (by rw [← h _ (.used hu)]; exact hg)
    | sub _ hsub ih =>
      obtain ⟨f, hf, hd, hg⟩ := hsub
      exact .sub ih ⟨f, hf, hd, by rw [← h _ (.field ih hf (.inr hd))]; exact hg⟩
  constructor
  · intro hn
    cases hn with
    | used hu => exact .used hu
    | field he hf hd => exact .field (e2 _ he) hf hd
  · intro hn
    cases hn with
    | used hu => exact .used hu
    | field he hf hd => exact .field (e1 _ he) hf hd

/-- The text of the globals file depends only on the set of used names and on the global types. -/
theorem compileGlobals_same (hk : InputFieldsOnce schema) (ω ω' : Hash) (fuel fuel' : Nat) (cfg : TsConfig)
    {used used' : List String} (hu : ∀ n, n ∈ used ↔ n ∈ used')
    (hsame : ∀ n, GlobalName schema used n → schema'.getType n = schema.getType n) {t t' : String}
    (h : compileGlobals ω fuel cfg schema used = some (.ok t))
    (h' : compileGlobals ω' fuel' cfg schema' used' = some (.ok t')) : t' = t := by
  have hname : ∀ n, GlobalName schema' used' n ↔ GlobalName schema used n := fun n => by
    rw [← globalName_congr hu, globalName_same hsame]
  unfold compileGlobals globalTypesFromNames at h h'
  cases hl : globalNameLoop ω fuel schema (ω.perm ["typescript.rs:201"] used) [] with
  | none => simp [hl] at h
  | some r =>
    cases r with
    | error e => simp [hl] at h
    | ok m =>
      cases hl' : globalNameLoop ω' fuel' schema' (ω'.perm ["typescript.rs:201"] used') [] with
      | none => simp [hl'] at h'
      | some r =>
        cases r with
        | error e => simp [hl'] at h'
        | ok m' =>
          obtain ⟨g, k⟩ := collected ω fuel schema used hl
          obtain ⟨g', k'⟩ := collected ω' fuel' schema' used' hl'
          have g'' : GoodMap schema m' := by
            refine ⟨fun n v hv => ?_, g'.nodup⟩
            have hm : n ∈ m'.keys := List.mem_map.2 ⟨_, AMap.mem_of_get? hv, rfl⟩
            rw [← hsame n ((hname n).1 ((k' n).1 hm))]
            exact g'.agrees _ _ hv
          have hp := collected_perm g g'' (fun n => by rw [k, k', hname])
          have hsort : sortBy Prod.fst (ω.perm ["typescript.rs:209"] m) =
              sortBy Prod.fst (ω'.perm ["typescript.rs:209"] m') := by
            refine sortBy_eq_of_perm _ (((ω.isPerm _ _).trans hp).trans (ω'.isPerm _ _).symm) ?_
            exact ((ω.isPerm ["typescript.rs:209"] m).map Prod.fst).nodup_iff.2 g.nodup
          have hdefs : (sortBy Prod.fst (ω.perm ["typescript.rs:209"] m)).map
                (fun e => globalDef ω cfg e.1 e.2) =
              (sortBy Prod.fst (ω'.perm ["typescript.rs:209"] m')).map
                (fun e => globalDef ω' cfg e.1 e.2) := by
            rw [← hsort]
            apply List.map_congr_left
            rintro ⟨n, v⟩ he
            have hm : (n, v) ∈ m := ((sortBy_perm _ _).trans (ω.isPerm _ _)).mem_iff.1 he
            exact globalDef_det hk ω ω' cfg n v (g.agrees _ _ (AMap.get?_of_mem g.nodup hm))
          simp only [hl] at h
          simp only [hl', ← hdefs] at h'
          revert h h'
          cases seqE ((sortBy Prod.fst (ω.perm ["typescript.rs:209"] m)).map
            (fun e => globalDef ω cfg e.1 e.2)) with
          | error e => simp
          | ok ds =>
            simp only [Option.some.injEq, Except.ok.injEq]
            intro a b
            rw [← a, ← b]

/-- A type that is described in the same way is loaded in the same way. -/
theorem loaded_same {doc doc' : JSchema} (hs : Schema.ofJson doc = .ok schema) (hs' : Schema.ofJson doc' = .ok schema')
    {n : String} (h : typeNamed doc' n = typeNamed doc n) : schema'.getType n = schema.getType n := by
  have ht := loaded_type hs n
  have ht' := loaded_type hs' n
  rw [h] at ht'
  cases hj : typeNamed doc n with
  | none => rw [hj] at ht ht'; simp only at ht ht'; rw [ht, ht']
  | some j =>
    rw [hj] at ht ht'
    obtain ⟨t, hg, hd⟩ := ht
    obtain ⟨t', hg', hd'⟩ := ht'
    obtain ⟨j₁, e1, f1, _⟩ := loaded_full hs hg
    obtain ⟨j₂, e2, f2, _⟩ := loaded_full hs' hg'
    rw [h, hj] at e2
    rw [hj] at e1
    injection e1 with e1
    injection e2 with e2
    subst e1 e2
    rw [hd] at hd'
    have hd' := Except.ok.inj hd'
    rw [hg, hg']
    obtain ⟨_, _⟩ := t
    obtain ⟨_, _⟩ := t'
    simp only at hd' f1 f2
    subst hd'
    rw [f1] at f2
    subst f2
    rfl

end

section
variable {ext : Ext} {cfg : CompileConfig} {schema schema' : Schema} {w : World} {root : Entry} {rootPath : Path}
  {doc doc' : JSchema}

/-- **C98.** If moreover no enum or input object has changed, the second run leaves all files as the first one
does. -/
theorem C98_same_globals {ω₁ ω₂ : Path → Hash} {ω₁' ω₂' : Hash} {fuel₁ fuel₂ threads₁ threads₂ : Nat}
    {s₁ s₂ : PoolSt World} {ms₁ ms₂ : List Msg} {w₁ w₂ : World} (paint : Paint)
    (hr : NoOutputRead w cfg root) (hd : OutputsDistinct w root) (hg : GlobalsApart w cfg rootPath root)
    (hv : ValidDoc doc) (hv' : ValidDoc doc') (hi' : ValidInputs doc')
    (hs : Schema.ofJson doc = .ok schema) (hs' : Schema.ofJson doc' = .ok schema') (hgrow : Grows doc doc')
    (hsame : SameInputs doc doc') (hh : ∀ p, FoundIn root p → HashProof ext schema w cfg p)
    (R₁ : RunsTo ω₁ ω₁' fuel₁ ext cfg schema rootPath root threads₁ w s₁ ms₁ w₁)
    (R₂ : RunsTo ω₂ ω₂' fuel₂ ext cfg schema' rootPath root threads₂ w s₂ ms₂ w₂)
    (h0 : (printExitInfo paint ms₁).code = 0) : SameFiles w₁ w₂ := by
  have A := after_run hr hd hg R₁
  have B := after_run hr hd hg R₂
  have F := (C74_exit_status hr hd hg R₁ paint).1 h0
  obtain ⟨h0', hfiles, hused⟩ := C98_regeneration paint hr hd hg hv hv' hi' hs hs' hgrow hh R₁ R₂ h0
  have hu : ∀ n, n ∈ s₁.aggregate.2 ↔ n ∈ s₂.aggregate.2 := fun n => by
    rw [usedGlobal_iff A, usedGlobal_iff B, hused]
  refine ⟨by rw [A.resolve, B.resolve], by rw [A.writeErr, B.writeErr], ?_⟩
  intro id
  by_cases hid : id = globalsId w cfg rootPath
  · subst hid
    have hno : ∀ {s : PoolSt World} {ms : List Msg} {e : TsError}, (printExitInfo paint ms).code = 0 →
        ms = s.aggregate.1 ++ [e.toMsg] → False := by
      intro s ms e h hm
      exact tsError_level e ((C43_exit_zero_iff_no_error paint ms).1.1 h e.toMsg (by rw [hm]; simp))
    rcases A.globals with ⟨hn, _, ha⟩ | ⟨hn, r, hc, ⟨e, rfl, hm, _⟩ | ⟨text, rfl, ha, _⟩⟩
    · rcases B.globals with ⟨_, _, hb⟩ | ⟨hn', _⟩
      · rw [ha, hb]
      · obtain ⟨n, hnm⟩ := List.exists_mem_of_ne_nil _ hn'
        rw [← hu, hn] at hnm
        simp at hnm
    · exact absurd (hno h0 hm) id
    · rcases B.globals with ⟨hn', _⟩ | ⟨_, r', hc', ⟨e, rfl, hm, _⟩ | ⟨text', rfl, hb, _⟩⟩
      · obtain ⟨n, hnm⟩ := List.exists_mem_of_ne_nil _ hn
        rw [hu, hn'] at hnm
        simp at hnm
      · exact absurd (hno h0' hm) id
      · have : text' = text := by
          refine compileGlobals_same (ofJson_inputFieldsOnce hs) _ _ _ _ _ hu ?_ hc hc'
          intro n hn
          obtain ⟨t, ht, hd, _⟩ := F.globals _ (usedGlobal_iff A) n hn
          exact loaded_same hs hs' (hsame n ((loaded_global_kind hs n).1 ⟨t, ht, hd⟩))
        rw [ha, hb, this]
  · exact hfiles id hid

end

/-! ### An example -/

theorem run_imports_q {il : ImportLine} {q : Path} (h : Imports Demo.cfg Demo.qPath Demo.runText il q) :
    q = Demo.fPath := by
  obtain ⟨h1, h2⟩ := h
  have hall : ∀ il ∈ importsOf Demo.runText,
      getFilePathOfFragment Demo.cfg il.after Demo.qPath.pop = some Demo.fPath := by decide +kernel
  rw [hall _ h1] at h2
  injection h2 with h2
  exact h2.symm

theorem run_imported_q {f : FragmentDef} :
    ImportedFragment Demo.runExt Demo.runWorld Demo.cfg Demo.qPath Demo.runText f ↔ f = Demo.fragF := by
  have rf : Demo.runWorld.read Demo.fPath = .ok "fragment F" := rfl
  have pf : Demo.runExt.parse "fragment F" = .ok [.fragment Demo.fragF] := rfl
  constructor
  · rintro ⟨q, c, hl, hr, hp⟩
    have hq : q = Demo.fPath := by
      cases hl with
      | direct hi hr' => exact run_imports_q hi
      | trans hi hr' hl' =>
        exfalso
        have := run_imports_q hi
        subst this
        rw [rf] at hr'
        injection hr' with hr'
        subst hr'
        cases hl' with
        | direct hi _ => exact demo_imports_f hi
        | trans hi _ _ => exact demo_imports_f hi
    subst hq
    rw [rf] at hr
    injection hr with hr
    subst hr
    rw [pf] at hp
    injection hp with hp
    injection hp with hp _
    injection hp with hp
    exact hp.symm
  · rintro rfl
    refine ⟨Demo.fPath, "fragment F", .direct (il := ⟨1, "#import \"f.graphql\"".toList,
      "f.graphql\"".toList⟩) ⟨?_, by decide +kernel⟩ rf, rf, pf⟩
    have hlen : (importsOf Demo.runText).map (fun l => (l.number, l.line, l.after)) =
      [(1, "#import \"f.graphql\"".toList, "f.graphql\"".toList)] := by decide +kernel
    cases h : importsOf Demo.runText with
    | nil => rw [h] at hlen; simp at hlen
    | cons a r =>
      rw [h] at hlen
      simp only [List.map_cons, List.cons.injEq, Prod.mk.injEq] at hlen
      obtain ⟨n, l, a'⟩ := a
      obtain ⟨⟨rfl, rfl, rfl⟩, _⟩ := hlen
      exact List.mem_cons_self ..

theorem run_hashProof {p : Path} (hp : FoundIn Demo.fileTree p) :
    HashProof Demo.runExt Demo.respSchema Demo.runWorld Demo.cfg p := by
  have hcon := loaded_consistent resp_valid resp_loads
  intro contents d hr hd
  rcases demo_found hp with rfl | rfl
  · obtain rfl := full_parses hr hd
    have rq : Demo.runWorld.read Demo.qPath = .ok Demo.runText := rfl
    rw [rq] at hr
    have hr := Except.ok.inj hr
    subst hr
    refine ⟨?_, ?_, by decide⟩
    · intro f f' h h' _
      rw [run_imported_q.1 h, run_imported_q.1 h']
    · intro frags hs
      have hget : ∀ n, AMap.get? Demo.ctx.fragments n = AMap.get? frags n := by
        intro n
        by_cases hn : n = "F"
        · subst hn
          rw [(hs "F" Demo.fragF).2 ⟨rfl, run_imported_q.2 rfl⟩]
          rfl
        · have h0 : AMap.get? Demo.ctx.fragments n = none := by
            unfold Demo.ctx
            simp only [AMap.get?]
            rw [if_neg (fun e => hn e.symm)]
          rw [h0]
          cases hf : AMap.get? frags n with
          | none => rfl
          | some f =>
            obtain ⟨h1, h2⟩ := (hs n f).1 hf
            rw [run_imported_q.1 h2] at h1
            exact absurd h1.symm hn
      refine ⟨fragsValid_congr hget resp_frags_valid, ?_⟩
      intro P hP
      have e : rootType Demo.query = some "Query" := rfl
      rw [e] at hP
      have hP := Option.some.inj hP
      subst hP
      obtain ⟨op, ws, c, h, _⟩ := respChecks_sound resp_checks
      exact oneTypePerKey_congr hget (full_document h).oneType
  · have rf : Demo.runWorld.read Demo.fPath = .ok "fragment F" := rfl
    rw [rf] at hr
    have hr := Except.ok.inj hr
    subst hr
    have pf : Demo.runExt.parse "fragment F" = .ok [.fragment Demo.fragF] := rfl
    rw [pf] at hd
    have hd := (List.cons.inj (Except.ok.inj hd)).1
    subst hd
    have none : ∀ f, ¬ ImportedFragment Demo.runExt Demo.runWorld Demo.cfg Demo.fPath "fragment F" f := by
      rintro f ⟨q, c, hl, _⟩
      cases hl with
      | direct hi _ => exact demo_imports_f hi
      | trans hi _ _ => exact demo_imports_f hi
    refine ⟨fun f _ h => absurd h (none f), ?_, by decide⟩
    intro frags hs
    have hget : ∀ n, AMap.get? ([] : Frags) n = AMap.get? frags n := by
      intro n
      cases hf : AMap.get? frags n with
      | none => rfl
      | some f => exact absurd ((hs n f).1 hf).2 (none f)
    refine ⟨fragsValid_congr hget (frags_nil_valid _), ?_⟩
    intro P hP
    have e : rootType (.fragment Demo.fragF) = some "Node" := rfl
    rw [e] at hP
    have hP := Option.some.inj hP
    subst hP
    obtain ⟨op, ws, h, hd⟩ := compiledDistinct_iff.1 (show compiledDistinct
      (Operation.compile .inOrder 9 ⟨Demo.respSchema, true, []⟩ (.fragment Demo.fragF)) = true by
        decide +kernel)
    exact oneTypePerKey_congr hget ((C21_listed_once_iff .inOrder 9 true hcon
      (frags_nil_valid _) (.fragment Demo.fragF) op ws "Node" rfl h).1 hd)

/-- The pool at the end of a run over the grown schema. -/
def grownRun : PoolSt World :=
  (PoolSt.init Demo.runWorld 1 Demo.fileTree).run
    (poolCompile (fun _ => .reversed) 9 Demo.runExt Demo.cfg Demo.grownSchema) 1 Demo.fileSched

/-- The end of that run. -/
def grownEnd : Option (List Msg × World) :=
  finishWork .inOrder 9 Demo.cfg Demo.grownSchema grownRun.world ⟨true, ["r"]⟩ grownRun.aggregate

/-- The run ended with status 0, no work was left, and this is the globals file. -/
def endsWith (s : PoolSt World) (e : Option (List Msg × World)) : Option String :=
  match e with
  | some (ms, w) =>
    if s.finished && (pending s).isEmpty && (printExitInfo .plain ms).code == 0 then
      (w.disk "/r/globals.ts").toOption
    else none
  | none => none

theorem endsWith_some {s : PoolSt World} {e : Option (List Msg × World)} {t : String} (h : endsWith s e = some t) :
    ∃ ms w, e = some (ms, w) ∧ s.finished = true ∧ pending s = [] ∧ (printExitInfo .plain ms).code = 0 ∧
      w.disk "/r/globals.ts" = .ok t := by
  unfold endsWith at h
  split at h
  · rename_i ms w
    split at h
    · rename_i hc
      simp only [Bool.and_eq_true, beq_iff_eq] at hc
      refine ⟨ms, w, rfl, hc.1.1, List.isEmpty_iff.1 hc.1.2, hc.2, ?_⟩
      cases hd : w.disk "/r/globals.ts" with
      | error _ => rw [hd] at h; simp [Except.toOption] at h
      | ok t' => rw [hd] at h; simp only [Except.toOption, Option.some.injEq] at h; rw [h]
    · simp at h
  · simp at h

/-- The demo schema grows by a type, fields, a value of an enum and an input field: the two generated files stay
as they are, and only the globals file differs. -/
theorem C98_demo : ∃ s₁ s₂ ms₁ ms₂ w₁ w₂,
    RunsTo (fun _ => .inOrder) .reversed 9 Demo.runExt Demo.cfg Demo.respSchema ⟨true, ["r"]⟩ Demo.fileTree 1
      Demo.runWorld s₁ ms₁ w₁ ∧
    RunsTo (fun _ => .reversed) .inOrder 9 Demo.runExt Demo.cfg Demo.grownSchema ⟨true, ["r"]⟩ Demo.fileTree 1
      Demo.runWorld s₂ ms₂ w₂ ∧
    (printExitInfo .plain ms₂).code = 0 ∧
    (∀ id, id ≠ globalsId Demo.runWorld Demo.cfg ⟨true, ["r"]⟩ → w₂.disk id = w₁.disk id) ∧
    w₂.disk (globalsId Demo.runWorld Demo.cfg ⟨true, ["r"]⟩) ≠
      w₁.disk (globalsId Demo.runWorld Demo.cfg ⟨true, ["r"]⟩) := by
  obtain ⟨_, _, _, _, _, hno, hd, hga, _⟩ := C89_demo
  have hid : globalsId Demo.runWorld Demo.cfg ⟨true, ["r"]⟩ = "/r/globals.ts" := by decide +kernel
  have a1 : (endsWith fullRun fullEnd).isSome = true := by decide +kernel
  have a2 : (endsWith grownRun grownEnd).isSome = true := by decide +kernel
  have a3 : endsWith fullRun fullEnd ≠ endsWith grownRun grownEnd := by decide +kernel
  obtain ⟨t₁, b1⟩ := Option.isSome_iff_exists.1 a1
  obtain ⟨t₂, b2⟩ := Option.isSome_iff_exists.1 a2
  rw [b1, b2] at a3
  obtain ⟨ms₁, w₁, e₁, h1, h2, h5, d1⟩ := endsWith_some b1
  obtain ⟨ms₂, w₂, e₂, h3, h4, _, d2⟩ := endsWith_some b2
  have R₁ : RunsTo (fun _ => .inOrder) .reversed 9 Demo.runExt Demo.cfg Demo.respSchema ⟨true, ["r"]⟩
      Demo.fileTree 1 Demo.runWorld fullRun ms₁ w₁ := ⟨⟨_, rfl⟩, h1, h2, e₁⟩
  have R₂ : RunsTo (fun _ => .reversed) .inOrder 9 Demo.runExt Demo.cfg Demo.grownSchema ⟨true, ["r"]⟩
      Demo.fileTree 1 Demo.runWorld grownRun ms₂ w₂ := ⟨⟨_, rfl⟩, h3, h4, e₂⟩
  obtain ⟨c1, c2, _⟩ := C98_regeneration .plain hno hd hga resp_valid (validDocB_sound (by decide +kernel))
    (validInputsB_sound (by decide +kernel)).1 resp_loads grown_loads grown_grows (fun p hp => run_hashProof hp) R₁ R₂ h5
  refine ⟨_, _, ms₁, ms₂, w₁, w₂, R₁, R₂, c1, c2, ?_⟩
  rw [hid, d1, d2]
  intro e
  exact a3 (by rw [Except.ok.inj e])

/-- The demo schema and a type more. -/
def Demo.widerJson : JSchema := ⟨Demo.respJson.types ++
  [⟨"OBJECT", "Team", none, none, none, some [Demo.fld "members" (Demo.li (Demo.t "OBJECT" "User"))], none⟩]⟩

/-- A schema that grows without a change of enums and input objects. -/
example : Grows Demo.respJson Demo.widerJson ∧ SameInputs Demo.respJson Demo.widerJson ∧ ValidDoc Demo.widerJson ∧
    ValidInputs Demo.widerJson := by
  refine ⟨growsB_sound (by decide +kernel), ?_, validDocB_sound (by decide +kernel),
    (validInputsB_sound (by decide +kernel)).1⟩
  intro n hn
  have hne : n ≠ "Team" := by
    rintro rfl
    revert hn
    decide +kernel
  unfold typeNamed lastNamed Demo.widerJson
  rw [List.filter_append]
  simp [List.filter_cons, Ne.symm hne]

end Qlc
