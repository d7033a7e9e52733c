import Verif.Spec.MoreDocuments
import Verif.Props.SameProject
import Verif.Props.Faults
/-
C144: more documents add declarations to the globals file and change nothing else.
-/
set_option autoImplicit false

namespace Qlc
open Spec

section
variable {schema : Schema}

/-- The declaration of a global type. -/
def declOf (cfg : TsConfig) (schema : Schema) (n : String) : String :=
  match schema.getType n with
  | some t => (match globalDef .inOrder cfg n t with | .ok d => d | .error _ => "")
  | none => ""

/-- The declarations of a globals file depend on the names only. -/
theorem globals_pieces (hk : InputFieldsOnce schema) (hreg : NamedAsRegistered schema) (ω : Hash) (fuel : Nat)
    (cfg : TsConfig) (used : List String) {text : String}
    (h : compileGlobals ω fuel cfg schema used = some (.ok text)) :
    ∃ names : List String,
      GlobalsText cfg schema used (names.map (fun n => (n, declOf cfg schema n))) text := by
  unfold compileGlobals globalTypesFromNames at h
  cases hl : globalNameLoop ω fuel schema (ω.perm ["typescript.rs:201"] used) [] with
  | none => simp [hl] at h
  | some r =>
    cases r with
    | error e => simp [hl] at h
    | ok m =>
      simp only [hl] at h
      cases hs : seqE ((sortBy Prod.fst (ω.perm ["typescript.rs:209"] m)).map
          (fun e => globalDef ω cfg e.1 e.2)) with
      | error e => rw [hs] at h; simp at h
      | ok defs =>
        rw [hs] at h
        simp only [Option.some.injEq, Except.ok.injEq] at h
        obtain ⟨G, hkeys⟩ := collected ω fuel schema used hl
        have hp : (sortBy Prod.fst (ω.perm ["typescript.rs:209"] m)).Perm m :=
          (sortBy_perm _ _).trans (ω.isPerm _ _)
        have hall : ∀ e ∈ sortBy Prod.fst (ω.perm ["typescript.rs:209"] m), schema.getType e.1 = some e.2 := by
          intro e he
          exact G.agrees _ _ (AMap.get?_of_mem G.nodup (hp.mem_iff.1 he))
        have h2 := forall₂_of_map_ok _ _ _ ((seqE_ok_iff _ _).1 hs)
        have key : ∀ (l : List (String × SType)) (defs : List String),
            List.Forall₂ (fun e d => globalDef ω cfg e.1 e.2 = .ok d) l defs →
            (∀ e ∈ l, schema.getType e.1 = some e.2) →
            defs = (l.map Prod.fst).map (declOf cfg schema) ∧
              ∀ n ∈ l.map Prod.fst, DeclaresGlobal cfg schema n (declOf cfg schema n) := by
          intro l defs h2
          induction h2 with
          | nil => intro _; exact ⟨rfl, by simp⟩
          | @cons e d l ds hab _ ih =>
            intro hall
            obtain ⟨i1, i2⟩ := ih (fun e he => hall e (List.mem_cons_of_mem _ he))
            have ht := hall e (List.mem_cons_self ..)
            have hd : declOf cfg schema e.1 = d := by
              unfold declOf
              rw [ht]
              simp only
              rw [globalDef_det hk .inOrder ω cfg e.1 e.2 ht, hab]
            refine ⟨by rw [List.map_cons, List.map_cons, hd, ← i1], ?_⟩
            intro n hn
            rw [List.map_cons, List.mem_cons] at hn
            rcases hn with rfl | hn
            · rw [hd]
              exact globalDef_ok ω cfg schema hreg ht hab
            · exact i2 n hn
        obtain ⟨k1, k2⟩ := key _ _ h2 hall
        have hfst : ∀ l : List String, (l.map (fun n => (n, declOf cfg schema n))).map Prod.fst = l := by
          intro l; rw [List.map_map]; exact List.map_id _
        have hsnd : ∀ l : List String, (l.map (fun n => (n, declOf cfg schema n))).map Prod.snd =
            l.map (declOf cfg schema) := by
          intro l; rw [List.map_map]; rfl
        refine ⟨(sortBy Prod.fst (ω.perm ["typescript.rs:209"] m)).map Prod.fst, ?_, ?_, ?_, ?_⟩
        · rw [hfst]
          exact lt_of_le_nodup (sortBy_sorted _ _) ((hp.map _).nodup_iff.2 G.nodup)
        · intro n
          rw [hfst, (hp.map _).mem_iff, ← hkeys]
          rfl
        · intro d hd
          obtain ⟨n, hn, rfl⟩ := List.mem_map.1 hd
          exact k2 n hn
        · rw [hsnd, ← k1]
          exact h.symm

/-- Of two lists in strict order, the one with fewer members is a sublist of the other. -/
theorem sublist_of_sorted {l l' : List String} (h : l.Pairwise (fun a b => a < b)) (h' : l'.Pairwise (fun a b => a < b))
    (hs : ∀ n ∈ l, n ∈ l') : l.Sublist l' := by
  have hn : ∀ {l : List String}, l.Pairwise (fun a b => a < b) → l.Nodup :=
    fun h => h.imp (fun hab e => by subst e; exact absurd hab (String.lt_irrefl _))
  have hp : l.Perm (l'.filter (fun n => decide (n ∈ l))) := by
    refine (List.perm_ext_iff_of_nodup (hn h) ((hn h').filter _)).2 (fun n => ?_)
    rw [List.mem_filter, decide_eq_true_eq]
    exact ⟨fun hm => ⟨hs n hm, hm⟩, fun hm => hm.2⟩
  have e : l = l'.filter (fun n => decide (n ∈ l)) :=
    List.Perm.eq_of_pairwise (le := fun a b => a < b)
      (fun a b _ _ hab hba => absurd (String.lt_trans hab hba) (String.lt_irrefl _)) h (h'.filter _) hp
  rw [e]
  exact List.filter_sublist

/-- More used names reach more global types. -/
theorem globalName_mono {used used' : List String} (h : ∀ g ∈ used, g ∈ used') {n : String}
    (hn : GlobalName schema used n) : GlobalName schema used' n := by
  have he : ∀ t, Expanded schema used t → Expanded schema used' t := by
    intro t ht
    induction ht with
    | used hu hg => exact .used (h _ hu) hg
    | sub _ hsub ih => exact .sub ih hsub
  cases hn with
  | used hu => exact .used (h _ hu)
  | field ht hf hd => exact .field (he _ ht) hf hd

/-- **C144.** If more global types are used, the declarations of the globals file stay as they are, word for word and in
their order, and others come in between. -/
theorem C144_declarations_stay (hk : InputFieldsOnce schema) (hreg : NamedAsRegistered schema) (ω ω' : Hash)
    (fuel fuel' : Nat) (cfg : TsConfig) {used used' : List String} (hu : ∀ g ∈ used, g ∈ used') {text text' : String}
    (h : compileGlobals ω fuel cfg schema used = some (.ok text))
    (h' : compileGlobals ω' fuel' cfg schema used' = some (.ok text')) :
    ∃ ds ds', GlobalsText cfg schema used ds text ∧ GlobalsText cfg schema used' ds' text' ∧ ds.Sublist ds' := by
  obtain ⟨names, T⟩ := globals_pieces hk hreg ω fuel cfg used h
  obtain ⟨names', T'⟩ := globals_pieces hk hreg ω' fuel' cfg used' h'
  refine ⟨_, _, T, T', List.Sublist.map _ ?_⟩
  have hfst : ∀ l : List String, (l.map (fun n => (n, declOf cfg schema n))).map Prod.fst = l := by
    intro l; rw [List.map_map]; exact List.map_id _
  have a := T.sorted
  have a' := T'.sorted
  have b := T.names
  have b' := T'.names
  rw [hfst] at a a' b b'
  exact sublist_of_sorted a a' (fun n hn => (b' n).2 (globalName_mono hu ((b n).1 hn)))

end

section
variable {ext : Ext} {cfg : CompileConfig} {schema : Schema} {w v : World} {root root' : Entry} {rootPath : Path}
  {doc : JSchema}

/-- **C144.** Let a project be a part of another: all its documents are documents of the other, with the same text and the
same imported files.  If runs over both end with status 0, whatever their hash orders and schedules, every document of the
smaller project has the same output after both, the globals used in the smaller one are used in the other, and the globals
file of the other has all declarations of the smaller one's, word for word and in the same order. -/
theorem C144_more_documents {ω₁ ω₂ : Path → Hash} {ω₁' ω₂' : Hash} {fuel₁ fuel₂ threads₁ threads₂ : Nat}
    {s₁ s₂ : PoolSt World} {ms₁ ms₂ : List Msg} {w₁ v₁ : World} (paint : Paint)
    (hr : NoOutputRead w cfg root) (hd : OutputsDistinct w root) (hg : GlobalsApart w cfg rootPath root)
    (hr' : NoOutputRead v cfg root') (hd' : OutputsDistinct v root') (hg' : GlobalsApart v cfg rootPath root')
    (hv : ValidDoc doc) (hs : Schema.ofJson doc = .ok schema)
    (hroot : ∀ p, FoundIn root p → FoundIn root' p) (hshared : ∀ p, FoundIn root p → SharedDocument cfg p w v)
    (hh : ∀ p, FoundIn root p → HashProof ext schema w cfg p)
    (R₁ : RunsTo ω₁ ω₁' fuel₁ ext cfg schema rootPath root threads₁ w s₁ ms₁ w₁)
    (R₂ : RunsTo ω₂ ω₂' fuel₂ ext cfg schema rootPath root' threads₂ v s₂ ms₂ v₁)
    (h0 : (printExitInfo paint ms₁).code = 0) (h0' : (printExitInfo paint ms₂).code = 0) :
    (∀ p, FoundIn root p → ∃ text, w₁.disk (w.resolve (outputPath p)) = .ok text ∧
      v₁.disk (v.resolve (outputPath p)) = .ok text) ∧
    (∀ g, UsedGlobal ω₁ fuel₁ ext cfg schema w root g → UsedGlobal ω₂ fuel₂ ext cfg schema v root' g) ∧
    ((∃ g, UsedGlobal ω₁ fuel₁ ext cfg schema w root g) → ∃ used used' ds ds' text text',
      (∀ g, g ∈ used ↔ UsedGlobal ω₁ fuel₁ ext cfg schema w root g) ∧
      (∀ g, g ∈ used' ↔ UsedGlobal ω₂ fuel₂ ext cfg schema v root' g) ∧
      GlobalsText cfg.toTsConfig schema used ds text ∧ GlobalsText cfg.toTsConfig schema used' ds' text' ∧
      ds.Sublist ds' ∧
      w₁.disk (globalsId w cfg rootPath) = .ok text ∧ v₁.disk (globalsId v cfg rootPath) = .ok text') := by
  have hcon := loaded_consistent hv hs
  have A := after_run hr hd hg R₁
  have B := after_run hr' hd' hg' R₂
  have file : ∀ p, FoundIn root p → ∃ c : Compile, w₁.disk (w.resolve (outputPath p)) = .ok c.contents ∧
      v₁.disk (v.resolve (outputPath p)) = .ok c.contents ∧
      globalsOfFile ω₁ fuel₁ ext cfg schema w p = c.globalTypesUsed ∧
      globalsOfFile ω₂ fuel₂ ext cfg schema v p = c.globalTypesUsed := by
    intro p hp
    obtain ⟨_, _, _, _, _, c, G, a1, a2⟩ := run_file paint hr hd hg R₁ h0 hp
    obtain ⟨_, _, _, _, _, c', G', b1, b2⟩ := run_file paint hr' hd' hg' R₂ h0' (hroot p hp)
    have g := (generateFile_ok _ _ _ _ _ _ _ _ c).2 ⟨_, _, _, _, _, G, rfl⟩
    have g' := (generateFile_ok _ _ _ _ _ _ _ _ c').2 ⟨_, _, _, _, _, G', rfl⟩
    rw [generateFile_congr cfg w v (ω₂ p) fuel₂ ext schema p (hshared p hp).reads] at g'
    rcases generate_sim ext cfg schema w p hcon (hh p hp) _ _ _ _ g g' with ⟨m, m', c'', e, e', _⟩ | ⟨m, m', e, _⟩
    · have e := congrArg Prod.snd (Except.ok.inj e)
      have e' := congrArg Prod.snd (Except.ok.inj e')
      simp only at e e'
      subst e e'
      exact ⟨_, a1, b1, a2, b2⟩
    · simp at e
  have hused : ∀ g, UsedGlobal ω₁ fuel₁ ext cfg schema w root g → UsedGlobal ω₂ fuel₂ ext cfg schema v root' g := by
    intro g
    rw [← usedGlobal_iff A, ← usedGlobal_iff B, A.used, B.used]
    rintro ⟨p, hp, hgp⟩
    obtain ⟨c, _, _, a, b⟩ := file p hp
    exact ⟨p, hroot p hp, by rw [b]; rw [a] at hgp; exact hgp⟩
  refine ⟨fun p hp => ?_, hused, ?_⟩
  · obtain ⟨c, a, b, _⟩ := file p hp
    exact ⟨_, a, b⟩
  · rintro hex
    obtain ⟨t, hc, ht⟩ := run_globals paint hr hd hg R₁ h0 hex
    obtain ⟨g, hgu⟩ := hex
    obtain ⟨t', hc', ht'⟩ := run_globals paint hr' hd' hg' R₂ h0' ⟨g, hused g hgu⟩
    obtain ⟨ds, ds', T, T', hsub⟩ := C144_declarations_stay (ofJson_inputFieldsOnce hs) (ofJson_namedAsRegistered hs)
      _ _ _ _ cfg.toTsConfig (fun g hg => (usedGlobal_iff B g).2 (hused g ((usedGlobal_iff A g).1 hg))) hc hc'
    exact ⟨_, _, ds, ds', t, t', usedGlobal_iff A, usedGlobal_iff B, T, T', hsub, ht, ht'⟩

end

/-! ### An example -/

namespace Demo

/-- The directory before `/r/f.graphql` was written. -/
def soloTree : Entry := .dir ⟨true, ["r"]⟩ [.file qPath]

/-- Its files. -/
def soloWorld : World where
  resolve := Path.display
  disk := fun id => if id = "/r/q.graphql" then .ok "query Q" else .error "missing"
  writeErr := fun _ => none

end Demo

/-- A run over the one document. -/
def soloRun : PoolSt World :=
  (PoolSt.init Demo.soloWorld 1 Demo.soloTree).run
    (poolCompile (fun _ => .reversed) 9 Demo.faultExt Demo.cfg Demo.respSchema) 1 Demo.fileSched

/-- Its end. -/
def soloEnd : Option (List Msg × World) :=
  finishWork .reversed 9 Demo.cfg Demo.respSchema soloRun.world ⟨true, ["r"]⟩ soloRun.aggregate

theorem solo_found {p : Path} (h : FoundIn Demo.soloTree p) : p = Demo.qPath := by
  have : p ∈ filesOf Demo.soloTree := (mem_filesOf _ p).2 h
  have e : filesOf Demo.soloTree = [Demo.qPath] := by decide +kernel
  rw [e] at this
  simpa using this

theorem solo_no_imports : importsOf "query Q" = [] := by
  have : (importsOf "query Q").length = 0 := by decide +kernel
  exact List.length_eq_zero_iff.1 this

theorem solo_reads {w : World} (rq : w.read Demo.qPath = .ok "query Q") {q : Path}
    (h : Spec.Reads w Demo.cfg Demo.qPath q) : q = Demo.qPath := by
  induction h with
  | self => rfl
  | imported _ hr hi ih =>
    subst ih
    rw [rq] at hr
    have hr := Except.ok.inj hr
    subst hr
    have h1 := hi.1
    rw [solo_no_imports] at h1
    simp at h1

theorem solo_apart {w : World} (hres : w.resolve = Path.display) (rq : w.read Demo.qPath = .ok "query Q") :
    NoOutputRead w Demo.cfg Demo.soloTree ∧ OutputsDistinct w Demo.soloTree ∧
      GlobalsApart w Demo.cfg ⟨true, ["r"]⟩ Demo.soloTree := by
  refine ⟨?_, fun p q hp hq _ => by rw [solo_found hp, solo_found hq], ?_, ?_⟩
  · rintro p q hp hq ⟨p', hp', ho⟩
    rw [solo_found hp] at hq
    rw [solo_found hp', solo_reads rq hq, hres] at ho
    revert ho
    decide +kernel
  · rintro ⟨p', hp', ho⟩
    rw [solo_found hp', globalsId, hres] at ho
    revert ho
    decide +kernel
  · intro p q hp hq
    rw [solo_found hp] at hq
    rw [solo_reads rq hq, globalsId, hres]
    decide +kernel

theorem solo_hashProof {w : World} (rq : w.read Demo.qPath = .ok "query Q") :
    HashProof Demo.faultExt Demo.respSchema w Demo.cfg Demo.qPath := by
  have hcon := loaded_consistent resp_valid resp_loads
  intro contents d hr hd
  rw [rq] at hr
  have hr := Except.ok.inj hr
  subst hr
  have e : Demo.faultExt.parse "query Q" = .ok [Demo.faultQuery] := rfl
  rw [e] at hd
  have hd := (List.cons.inj (Except.ok.inj hd)).1
  subst hd
  have none : ∀ f, ¬ ImportedFragment Demo.faultExt w Demo.cfg Demo.qPath "query Q" f := by
    rintro f ⟨q, _, hl, _⟩
    have no : ∀ {il : ImportLine} {r : Path}, ¬ Imports Demo.cfg Demo.qPath "query Q" il r := by
      rintro il r ⟨h1, _⟩
      rw [solo_no_imports] at h1
      simp at h1
    cases hl with
    | direct hi _ => exact no hi
    | trans hi _ _ => exact no hi
  refine ⟨fun f _ h => absurd h (none f), ?_, by decide⟩
  intro frags hs
  have hget : ∀ n, AMap.get? ([] : Frags) n = AMap.get? frags n := by
    intro n
    cases hf : AMap.get? frags n with
    | none => rfl
    | some f => exact absurd ((hs n f).1 hf).2 (none f)
  refine ⟨fragsValid_congr hget (frags_nil_valid _), ?_⟩
  intro P hP
  have e : rootType Demo.faultQuery = some "Query" := rfl
  rw [e] at hP
  have hP := Option.some.inj hP
  subst hP
  obtain ⟨op, ws, h, hd⟩ := compiledDistinct_iff.1 (show compiledDistinct
    (Operation.compile .inOrder 9 ⟨Demo.respSchema, true, []⟩ Demo.faultQuery) = true by decide +kernel)
  exact oneTypePerKey_congr hget ((C21_listed_once_iff .inOrder 9 true hcon
    (frags_nil_valid _) Demo.faultQuery op ws "Query" rfl h).1 hd)

/-- A second document is added to the demo directory: the output of the first stays as it is, and the globals file gets
another declaration. -/
theorem C144_demo : ∃ s₁ s₂ ms₁ ms₂ w₁ v₁,
    RunsTo (fun _ => .reversed) .reversed 9 Demo.faultExt Demo.cfg Demo.respSchema ⟨true, ["r"]⟩ Demo.soloTree 1
      Demo.soloWorld s₁ ms₁ w₁ ∧
    RunsTo (fun _ => .inOrder) .inOrder 9 Demo.faultExt Demo.cfg Demo.respSchema ⟨true, ["r"]⟩ Demo.fileTree 1
      Demo.faultWorld s₂ ms₂ v₁ ∧
    (∃ text, w₁.disk "/r/q.graphql.d.ts" = .ok text ∧ v₁.disk "/r/q.graphql.d.ts" = .ok text) ∧
    w₁.disk "/r/globals.ts" ≠ v₁.disk "/r/globals.ts" ∧
    ∃ used used' ds ds' text text', GlobalsText Demo.cfg.toTsConfig Demo.respSchema used ds text ∧
      GlobalsText Demo.cfg.toTsConfig Demo.respSchema used' ds' text' ∧ ds.Sublist ds' ∧
      w₁.disk "/r/globals.ts" = .ok text ∧ v₁.disk "/r/globals.ts" = .ok text' := by
  have hqf : FoundIn Demo.fileTree Demo.qPath := (mem_filesOf _ _).1 (by decide +kernel)
  have hroot : ∀ p, FoundIn Demo.soloTree p → FoundIn Demo.fileTree p := fun p hp => by rw [solo_found hp]; exact hqf
  have i2 : importsOf "query P" = [] := by
    have : (importsOf "query P").length = 0 := by decide +kernel
    exact List.length_eq_zero_iff.1 this
  obtain ⟨hno', hd', hga'⟩ := importless_apart (w := Demo.faultWorld) rfl (by
    intro p c hp hc
    rcases demo_found hp with rfl | rfl
    · have e : Demo.faultWorld.read Demo.qPath = .ok "query Q" := rfl
      rw [e] at hc
      rw [← Except.ok.inj hc, solo_no_imports]
    · have e : Demo.faultWorld.read Demo.fPath = .ok "query P" := rfl
      rw [e] at hc
      rw [← Except.ok.inj hc, i2])
  obtain ⟨hno, hd, hga⟩ := solo_apart (w := Demo.soloWorld) rfl rfl
  have hid : globalsId Demo.soloWorld Demo.cfg ⟨true, ["r"]⟩ = "/r/globals.ts" := by decide +kernel
  have hid' : globalsId Demo.faultWorld Demo.cfg ⟨true, ["r"]⟩ = "/r/globals.ts" := by decide +kernel
  have a1 : (endsWith soloRun soloEnd).isSome = true := by decide +kernel
  have a2 : (endsWith soundRun soundEnd).isSome = true := by decide +kernel
  have a3 : endsWith soloRun soloEnd ≠ endsWith soundRun soundEnd := by decide +kernel
  have a4 : soloRun.aggregate.2.isEmpty = false := by decide +kernel
  obtain ⟨t₁, b1⟩ := Option.isSome_iff_exists.1 a1
  obtain ⟨t₂, b2⟩ := Option.isSome_iff_exists.1 a2
  rw [b1, b2] at a3
  obtain ⟨ms₁, w₁, e₁, h1, h2, h5, d1⟩ := endsWith_some b1
  obtain ⟨ms₂, v₁, e₂, h3, h4, h6, d2⟩ := endsWith_some b2
  have R₁ : RunsTo (fun _ => .reversed) .reversed 9 Demo.faultExt Demo.cfg Demo.respSchema ⟨true, ["r"]⟩
      Demo.soloTree 1 Demo.soloWorld soloRun ms₁ w₁ := ⟨⟨_, rfl⟩, h1, h2, e₁⟩
  have R₂ : RunsTo (fun _ => .inOrder) .inOrder 9 Demo.faultExt Demo.cfg Demo.respSchema ⟨true, ["r"]⟩
      Demo.fileTree 1 Demo.faultWorld soundRun ms₂ v₁ := ⟨⟨_, rfl⟩, h3, h4, e₂⟩
  have hshared : ∀ p, FoundIn Demo.soloTree p → SharedDocument Demo.cfg p Demo.soloWorld Demo.faultWorld := by
    intro p hp
    rw [solo_found hp]
    exact ⟨fun q hq => by rw [solo_reads rfl hq]; rfl, rfl, rfl⟩
  have hex : ∃ n, UsedGlobal (fun _ => .reversed) 9 Demo.faultExt Demo.cfg Demo.respSchema Demo.soloWorld
      Demo.soloTree n := by
    have A := after_run hno hd hga R₁
    cases hu : soloRun.aggregate.2 with
    | nil => rw [hu] at a4; simp at a4
    | cons n _ => exact ⟨n, (usedGlobal_iff A n).1 (by rw [hu]; simp)⟩
  obtain ⟨c1, _, c3⟩ := C144_more_documents .plain hno hd hga hno' hd' hga' resp_valid resp_loads hroot hshared
    (fun p hp => by rw [solo_found hp]; exact solo_hashProof rfl) R₁ R₂ h5 h6
  obtain ⟨used, used', ds, ds', t, t', _, _, T, T', hsub, k1, k2⟩ := c3 hex
  rw [hid] at k1
  rw [hid'] at k2
  have hq := c1 Demo.qPath ((mem_filesOf _ _).1 (by decide +kernel))
  have o1 : Demo.soloWorld.resolve (outputPath Demo.qPath) = "/r/q.graphql.d.ts" := by decide +kernel
  have o2 : Demo.faultWorld.resolve (outputPath Demo.qPath) = "/r/q.graphql.d.ts" := by decide +kernel
  rw [o1, o2] at hq
  refine ⟨_, _, ms₁, ms₂, w₁, v₁, R₁, R₂, hq, ?_, used, used', ds, ds', t, t', T, T', hsub, k1, k2⟩
  rw [d1, d2]
  intro e
  exact a3 (by rw [Except.ok.inj e])

end Qlc
