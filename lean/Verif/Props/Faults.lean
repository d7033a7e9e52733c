import Verif.Spec.Faults
import Verif.Props.Correct
import Verif.Props.Edit
/-
Property C137: a fault in one document does not spoil the others.
-/
set_option autoImplicit false

namespace Qlc
open Spec

section
variable {doc : JSchema} {schema : Schema} {ext : Ext} {cfg : CompileConfig} {w w' : World} {p : Path}

theorem known_type_iff (hs : Schema.ofJson doc = .ok schema) (n : String) :
    KnownTypeName schema n ↔ n ∈ ["ID", "String", "Float", "Int", "Boolean"] ∨ ∃ k, kindNamed doc n = some k := by
  have ht := loaded_type hs n
  unfold KnownTypeName kindNamed
  refine or_congr Iff.rfl ?_
  cases hj : typeNamed doc n with
  | none =>
    rw [hj] at ht
    simp [show schema.getType n = none from ht]
  | some j =>
    rw [hj] at ht
    obtain ⟨t, ht, _⟩ := ht
    simp [ht]

/-- If compiling the document comes to an end, then a text is generated exactly if one can be generated. -/
theorem generates_iff_generable (hv : ValidDoc doc) (hs : Schema.ofJson doc = .ok schema)
    (hmem : ∀ P, CompositeNamed doc P → objectTypes doc P ≠ []) (hu : NamesDiffer ext w cfg p)
    {ω : Path → Hash} {fuel : Nat} {ms : List Msg} {gs : List String}
    (h : CompilesWith ω fuel ext cfg schema w p ms gs) :
    (∃ contents d st op ws c, Generates (ω p) fuel ext cfg schema w p contents d st op ws c) ↔
      Generable ext doc schema w cfg p := by
  have hcon := loaded_consistent hv hs
  constructor
  · rintro ⟨contents, d, st, op, ws, c, G⟩
    obtain ⟨P, hP, hPc, hval, hvars⟩ := (C07_compiles_iff_valid (ω p) fuel _ hcon d _ ws G.valid).1 ⟨op, rfl⟩
    exact ⟨contents, d, P, _, G.readable, G.parses, hP, (loaded_composite hs P).1 hPc,
      inScope_foreign ext cfg w p (ω p) G.scanned (fun f f' => hu contents d f f' G.readable G.parses), hval,
      fun v hm => ⟨(hvars v hm).1, (known_type_iff hs _).1 (hvars v hm).2⟩⟩
  · rintro ⟨contents, d, P, frags, hread, hparse, hP, hPc, hsc, hval, hvars⟩
    obtain ⟨y, hy⟩ := returns_iff_compiles.2 ⟨ms, gs, h⟩
    unfold generateFile readGraphqlFile at hy
    simp only [hread, (parse_ok _ _ p _).2 hparse] at hy
    cases hi : addImported w cfg fuel p contents ⟨[], []⟩ with
    | none => simp [hi] at hy
    | some x =>
      cases x with
      | panic => simp [hi] at hy
      | done st =>
        simp only [hi] at hy
        have hsc' := inScope_foreign ext cfg w p (ω p) hi (fun f f' => hu contents d f f' hread hparse)
        cases hc : Operation.compile (ω p) fuel ⟨schema, cfg.showDeprecationWarnings,
            (parseForeignFragments (ω p) ext p st.imports st.messages).1⟩ d with
        | none => simp [hc] at hy
        | some a =>
          obtain ⟨r, ws⟩ := a
          obtain ⟨op, rfl⟩ := (C07_compiles_iff_valid (ω p) fuel _ hcon d r ws hc).2
            ⟨P, hP, (loaded_composite hs P).2 hPc, (valid_congr (inScope_get ext cfg w p hsc hsc') _ _).1 hval,
              fun v hv => ⟨(hvars v hv).1, (known_type_iff hs _).2 (hvars v hv).2⟩⟩
          obtain ⟨hPc', _, ht, hfin⟩ := compiled_tree hcon hP hc
          have hne : AllNonempty op.collection := by
            rintro qs hq rfl
            obtain ⟨P', sets, hP', h'⟩ := composite_under hq hcon (fun n => ⟨_, _, hPc', ht n⟩) 1
            have hm := hmem P' ((loaded_composite hs P').1 hP')
            rw [← loaded_possible hs] at hm
            obtain ⟨T, hT⟩ := List.exists_mem_of_ne_nil _ hm
            have := (h'.2.1 T).2 hT
            simp at this
          obtain ⟨c, hir⟩ := compileIr_ok (ω p) cfg.toTsConfig hne
            (fun vs hvs => variables_known (by rw [← hvs]; exact (finish_ok hfin).2.2))
          exact ⟨contents, d, st, op, ws, c, hread, hparse, hi, hc, hir⟩

end

section
variable {doc : JSchema} {schema : Schema} {ext : Ext} {cfg : CompileConfig} {w w' : World} {rootPath : Path}
  {root : Entry} {ω : Path → Hash} {ω' : Hash} {fuel threads : Nat} {s : PoolSt World} {ms : List Msg}

/-- **C137.** After a complete run, whatever its exit status: every document for which a file can be generated, and
whose output can be written, has its output file, with the text generated from that document; and if none can be
generated the output file is as it was. -/
theorem C137_what_a_run_leaves (hr : NoOutputRead w cfg root) (hd : OutputsDistinct w root)
    (hg : GlobalsApart w cfg rootPath root) (hv : ValidDoc doc) (hs : Schema.ofJson doc = .ok schema)
    (hmem : ∀ P, CompositeNamed doc P → objectTypes doc P ≠ [])
    (R : RunsTo ω ω' fuel ext cfg schema rootPath root threads w s ms w')
    {p : Path} (hp : FoundIn root p) (hu : NamesDiffer ext w cfg p) :
    (Generable ext doc schema w cfg p → ∃ contents d st op ws c,
      Generates (ω p) fuel ext cfg schema w p contents d st op ws c ∧
      (OutputWritable w p → w'.disk (w.resolve (outputPath p)) = .ok c.contents)) ∧
    (¬ Generable ext doc schema w cfg p →
      w'.disk (w.resolve (outputPath p)) = w.disk (w.resolve (outputPath p))) := by
  have A := after_run hr hd hg R
  obtain ⟨gs, m, e⟩ := A.returned p hp
  rw [← generates_iff_generable hv hs hmem hu (compilesWith_of_done e), A.outputs p hp, poolCompile_world]
  constructor
  · rintro ⟨contents, d, st, op, ws, c, G⟩
    refine ⟨contents, d, st, op, ws, c, G, fun hw => ?_⟩
    rw [(generateFile_ok (ω p) fuel ext cfg schema w p _ c).2 ⟨contents, d, st, op, ws, G, rfl⟩]
    unfold OutputWritable at hw
    simp [World.write, hw, World.put]
  · intro hno
    split
    · rename_i msgs c hgen
      obtain ⟨contents, d, st, op, ws, G, _⟩ := (generateFile_ok (ω p) fuel ext cfg schema w p msgs c).1 hgen
      exact absurd ⟨contents, d, st, op, ws, c, G⟩ hno
    · rfl

/-- **C137, the others do not matter.** Two projects that have a document in common, with the files it imports, and
may differ in everything else: a complete run over either, whatever its exit status, leaves the same text in the
output of that document, if one can be generated and written. -/
theorem C137_others_do_not_matter (hr : NoOutputRead w cfg root) (hd : OutputsDistinct w root)
    (hg : GlobalsApart w cfg rootPath root) (hv : ValidDoc doc) (hs : Schema.ofJson doc = .ok schema)
    (hmem : ∀ P, CompositeNamed doc P → objectTypes doc P ≠ [])
    (R : RunsTo ω ω' fuel ext cfg schema rootPath root threads w s ms w')
    {v v' : World} {rootPath₂ : Path} {root₂ : Entry} {ω₂ : Path → Hash} {ω₂' : Hash} {fuel₂ threads₂ : Nat}
    {s₂ : PoolSt World} {ms₂ : List Msg}
    (hr₂ : NoOutputRead v cfg root₂) (hd₂ : OutputsDistinct v root₂) (hg₂ : GlobalsApart v cfg rootPath₂ root₂)
    (R₂ : RunsTo ω₂ ω₂' fuel₂ ext cfg schema rootPath₂ root₂ threads₂ v s₂ ms₂ v')
    {p : Path} (hp : FoundIn root p) (hp₂ : FoundIn root₂ p) (hsame : SharedDocument cfg p w v)
    (hh : HashProof ext schema w cfg p) (hgen : Generable ext doc schema w cfg p) (hw : OutputWritable w p) :
    ∃ text, w'.disk (w.resolve (outputPath p)) = .ok text ∧ v'.disk (v.resolve (outputPath p)) = .ok text := by
  have hcon := loaded_consistent hv hs
  have A := after_run hr hd hg R
  have B := after_run hr₂ hd₂ hg₂ R₂
  have hu : NamesDiffer ext w cfg p := by
    intro c d f f' hc hd'
    exact (hh c d hc hd').1 f f'
  obtain ⟨contents, d, st, op, ws, c, G, ho⟩ := (C137_what_a_run_leaves hr hd hg hv hs hmem R hp hu).1 hgen
  refine ⟨_, ho hw, ?_⟩
  have g1 := (generateFile_ok (ω p) fuel ext cfg schema w p _ c).2 ⟨contents, d, st, op, ws, G, rfl⟩
  have hgc := generateFile_congr cfg w v (ω₂ p) fuel₂ ext schema p hsame.reads
  obtain ⟨gs, m, e⟩ := B.returned p hp₂
  obtain ⟨y, hy⟩ := returns_iff_compiles.2 ⟨_, _, compilesWith_of_done e⟩
  rw [hgc] at hy
  rw [B.outputs p hp₂, poolCompile_world, hgc, hy]
  rcases generate_sim ext cfg schema w p hcon hh _ _ fuel fuel₂ g1 hy with ⟨m1, m2, c', h1, rfl, _⟩ | ⟨m1, m2, h1, _⟩
  · have h1 := Except.ok.inj h1
    obtain rfl : c = c' := congrArg Prod.snd h1
    unfold OutputWritable at hw
    simp [World.write, hsame.resolve, hsame.writeErr, hw, World.put]
  · simp at h1

/-- **C137, the globals.** The globals that a run counts as used are exactly those that the texts use that it
generated and could write. -/
theorem C137_globals_of_generated_documents (hr : NoOutputRead w cfg root) (hd : OutputsDistinct w root)
    (hg : GlobalsApart w cfg rootPath root)
    (R : RunsTo ω ω' fuel ext cfg schema rootPath root threads w s ms w') (g : String) :
    UsedGlobal ω fuel ext cfg schema w root g ↔ ∃ p contents d st op ws c, FoundIn root p ∧ OutputWritable w p ∧
      Generates (ω p) fuel ext cfg schema w p contents d st op ws c ∧ g ∈ c.globalTypesUsed := by
  have A := after_run hr hd hg R
  constructor
  · rintro ⟨p, msgs, gs, hp, ⟨r, hc, hres⟩, hgs⟩
    rcases hres with ⟨rep, hrep, _, rfl⟩ | ⟨_, rfl⟩
    case inr => simp at hgs
    rcases C41_writes_only_its_output (ω p) fuel ext cfg schema w p r hc with
      ⟨contents, d, st, op, ws, c, G, _, hw, _⟩ | ⟨_, _, es, he⟩
    · refine ⟨p, contents, d, st, op, ws, c, hp, ?_, G, (hw rep hrep).2 ▸ hgs⟩
      have g1 := (generateFile_ok (ω p) fuel ext cfg schema w p _ c).2 ⟨contents, d, st, op, ws, G, rfl⟩
      unfold compileFile at hc
      rw [g1] at hc
      simp only at hc
      unfold OutputWritable
      unfold World.write at hc
      cases hw₁ : w.writeErr (w.resolve (outputPath p)) with
      | none => rfl
      | some e =>
        exfalso
        obtain ⟨e, left⟩ := e
        cases left <;>
        · simp only [hw₁, Option.some.injEq, PanicOr.done.injEq] at hc
          subst hc
          simp at hrep
    · rw [hrep] at he
      simp at he
  · rintro ⟨p, contents, d, st, op, ws, c, hp, hw, G, hgc⟩
    obtain ⟨gs, m, e⟩ := A.returned p hp
    have hcw := compilesWith_of_done e
    obtain ⟨r, hc, hres⟩ := hcw
    refine ⟨p, m, gs, hp, ⟨r, hc, hres⟩, ?_⟩
    rcases C41_writes_only_its_output (ω p) fuel ext cfg schema w p r hc with
      ⟨contents', d', st', op', ws', c', G', _, hw', hok⟩ | ⟨hno, _, es, he⟩
    · obtain ⟨rep, hrep⟩ := hok hw
      have g1 := (generateFile_ok (ω p) fuel ext cfg schema w p _ c).2 ⟨contents, d, st, op, ws, G, rfl⟩
      have g2 := (generateFile_ok (ω p) fuel ext cfg schema w p _ c').2 ⟨contents', d', st', op', ws', G', rfl⟩
      rw [g1] at g2
      have g2 := congrArg Prod.snd (Except.ok.inj (PanicOr.done.inj (Option.some.inj g2)))
      simp only at g2
      rcases hres with ⟨rep', hrep', _, rfl⟩ | ⟨he, _⟩
      · obtain rfl : rep = rep' := Except.ok.inj (hrep.symm.trans hrep')
        rw [(hw' rep hrep).2, ← g2]
        exact hgc
      · rw [hrep] at he
        simp at he
    · exact absurd ⟨contents, d, st, op, ws, c, G⟩ hno

/-- **C137, the globals file.** If the globals in use are valid and their file can be written, a complete run,
whatever its exit status, leaves in it the declarations of exactly the globals that the texts generated in this run
use, directly or through the fields of input objects. -/
theorem C137_globals_file (hr : NoOutputRead w cfg root) (hd : OutputsDistinct w root)
    (hg : GlobalsApart w cfg rootPath root) (hreg : NamedAsRegistered schema)
    (R : RunsTo ω ω' fuel ext cfg schema rootPath root threads w s ms w')
    (hval : ∀ used : List String, (∀ g, g ∈ used ↔ UsedGlobal ω fuel ext cfg schema w root g) →
      ∀ n, GlobalName schema used n → ValidGlobal schema n)
    (hwr : w.writeErr (globalsId w cfg rootPath) = none) :
    (∃ g, UsedGlobal ω fuel ext cfg schema w root g) → ∃ used names decls : List String,
      (∀ g, g ∈ used ↔ ∃ p contents d st op ws c, FoundIn root p ∧ OutputWritable w p ∧
        Generates (ω p) fuel ext cfg schema w p contents d st op ws c ∧ g ∈ c.globalTypesUsed) ∧
      (∀ n, n ∈ names ↔ GlobalName schema used n) ∧
      List.Forall₂ (DeclaresGlobal cfg.toTsConfig schema) names decls ∧
      w'.disk (globalsId w cfg rootPath) = .ok (generatedHeader ++ joinWith "\n\n" decls) := by
  rintro hex
  have A := after_run hr hd hg R
  have hused := usedGlobal_iff A
  refine ⟨s.aggregate.2, ?_⟩
  rcases A.globals with ⟨hn, _, _⟩ | ⟨hn, r, hc, ⟨e, rfl, hm, _⟩ | ⟨text, rfl, hdisk, hm⟩⟩
  · obtain ⟨g, hgu⟩ := hex
    rw [← hused, hn] at hgu
    simp at hgu
  · obtain ⟨t, ht⟩ := (C32_globals_ok_iff ω' fuel cfg.toTsConfig schema s.aggregate.2 _ hc).2 (hval _ hused)
    simp at ht
  · obtain ⟨names, decls, _, n2, n3, n4⟩ := C30_globals_text ω' fuel cfg.toTsConfig schema s.aggregate.2 hreg text hc
    refine ⟨names, decls, fun g => (hused g).trans (C137_globals_of_generated_documents hr hd hg R g), n2, n3, ?_⟩
    rw [hdisk]
    unfold World.write globalsId at *
    rw [hwr]
    simp [World.put, n4]

end

/-! ### Examples -/

namespace Demo

/-- `query Q { viewer { role } }`. -/
def faultQuery : Definition := .operation .query ⟨1, 1⟩ (some "Q") [] []
  [.field ⟨2, 3⟩ none "viewer" [] [] [leaf 2 12 "role"]]

/-- `query P($p: Page) { count }`. -/
def faultPage : Definition := .operation .query ⟨1, 1⟩ (some "P") [⟨⟨1, 9⟩, "p", .named "Page", none⟩] []
  [leaf 2 3 "count"]

/-- A stand-in for the parser on the two files; it refuses everything else. -/
def faultExt : Ext where
  parse := fun c =>
    if c = "query Q" then .ok [faultQuery] else if c = "query P" then .ok [faultPage] else .error "syntax error"
  dist := ext.dist

/-- `/r/q.graphql` uses the enum `Role`, `/r/f.graphql` the input object `Page`. -/
def faultWorld : World where
  resolve := Path.display
  disk := fun id =>
    if id = "/r/q.graphql" then .ok "query Q" else if id = "/r/f.graphql" then .ok "query P" else .error "missing"
  writeErr := fun _ => none

end Demo

/-- The first run. -/
def soundRun : PoolSt World :=
  (PoolSt.init Demo.faultWorld 1 Demo.fileTree).run
    (poolCompile (fun _ => .inOrder) 9 Demo.faultExt Demo.cfg Demo.respSchema) 1 Demo.fileSched

/-- Its end. -/
def soundEnd : Option (List Msg × World) :=
  finishWork .inOrder 9 Demo.cfg Demo.respSchema soundRun.world ⟨true, ["r"]⟩ soundRun.aggregate

/-- The files after the first run, with a mistake in `/r/q.graphql`. -/
def Demo.spoiltWorld : World :=
  match soundEnd with
  | some (_, w) => w.put "/r/q.graphql" "quary Q"
  | none => Demo.faultWorld

/-- The second run. -/
def spoiltRun : PoolSt World :=
  (PoolSt.init Demo.spoiltWorld 1 Demo.fileTree).run
    (poolCompile (fun _ => .inOrder) 9 Demo.faultExt Demo.cfg Demo.respSchema) 1 Demo.fileSched

/-- Its end. -/
def spoiltEnd : Option (List Msg × World) :=
  finishWork .inOrder 9 Demo.cfg Demo.respSchema spoiltRun.world ⟨true, ["r"]⟩ spoiltRun.aggregate

/-- Whether a text is a module that imports this type from this module. -/
def importsB (text name module : String) : Bool :=
  match parseModule text with
  | some m => m.any fun st => match st with
    | .importType names f => f == module && names.contains name
    | _ => false
  | none => false

theorem importsB_sound {text name module : String} (h : importsB text name module = true) :
    ∃ m names, parseModule text = some m ∧ .importType names module ∈ m ∧ name ∈ names := by
  unfold importsB at h
  split at h
  · rename_i m e
    obtain ⟨st, h1, h2⟩ := List.any_eq_true.1 h
    split at h2
    · rename_i names f
      simp only [Bool.and_eq_true, beq_iff_eq, List.contains_iff_mem] at h2
      obtain ⟨rfl, h2⟩ := h2
      exact ⟨m, names, e, h1, h2⟩
    · cases h2
  · cases h

/-- Whether a text is a module that does not export this type. -/
def exportsNotB (text name : String) : Bool :=
  match parseModule text with
  | some m => m.all fun st => match st with
    | .typeAlias n _ => n != name
    | .enum n _ => n != name
    | _ => true
  | none => false

theorem exportsNotB_sound {text name : String} (h : exportsNotB text name = true) :
    ∃ m, parseModule text = some m ∧ (∀ body, .typeAlias name body ∉ m) ∧ ∀ members, .enum name members ∉ m := by
  unfold exportsNotB at h
  split at h
  · rename_i m e
    rw [List.all_eq_true] at h
    exact ⟨m, e, fun body hm => by simpa using h _ hm, fun members hm => by simpa using h _ hm⟩
  · cases h

/-- **C137, what earlier runs left (negation witness).** Two documents use different globals, and a first run ends
with status 0.  Then somebody makes a mistake in the first document and runs the program again.  Its output stays, as
it should, but the globals file now lacks the enum which that output imports: the program does not count the globals
of documents with mistakes, yet writes the file anew. -/
theorem C137_kept_output_witness : ∃ s₁ s₂ ms₁ ms₂ w₁ v' m g names,
    RunsTo (fun _ => .inOrder) .inOrder 9 Demo.faultExt Demo.cfg Demo.respSchema ⟨true, ["r"]⟩ Demo.fileTree 1
      Demo.faultWorld s₁ ms₁ w₁ ∧ (printExitInfo .plain ms₁).code = 0 ∧
    EditedAt (fun id => id = "/r/q.graphql") w₁ Demo.spoiltWorld ∧
    RunsTo (fun _ => .inOrder) .inOrder 9 Demo.faultExt Demo.cfg Demo.respSchema ⟨true, ["r"]⟩ Demo.fileTree 1
      Demo.spoiltWorld s₂ ms₂ v' ∧
    v'.disk "/r/q.graphql.d.ts" = w₁.disk "/r/q.graphql.d.ts" ∧
    HoldsModule v' "/r/q.graphql.d.ts" m ∧ .importType names "globals" ∈ m ∧ "Role" ∈ names ∧
    HoldsModule v' "/r/globals.ts" g ∧ (∀ body, .typeAlias "Role" body ∉ g) ∧ ∀ members, .enum "Role" members ∉ g := by
  have a1 : (endsWith soundRun soundEnd).isSome = true := by decide +kernel
  have a2 : (leaves spoiltRun spoiltEnd "/r/q.graphql.d.ts").any (importsB · "Role" "globals") = true := by
    decide +kernel
  have a3 : (leaves spoiltRun spoiltEnd "/r/globals.ts").any (exportsNotB · "Role") = true := by decide +kernel
  have a4 : leaves soundRun soundEnd "/r/q.graphql.d.ts" = leaves spoiltRun spoiltEnd "/r/q.graphql.d.ts" := by
    decide +kernel
  obtain ⟨t₁, b1⟩ := Option.isSome_iff_exists.1 a1
  obtain ⟨t₂, b2, c2⟩ := (Option.any_eq_true _ _).1 a2
  obtain ⟨t₃, b3, c3⟩ := (Option.any_eq_true _ _).1 a3
  rw [b2] at a4
  obtain ⟨ms₁, w₁, e₁, h1, h2, h0, d1⟩ := endsWith_some b1
  obtain ⟨ms₂, v', e₂, h3, h4, d2⟩ := leaves_some b2
  obtain ⟨_, _, e₃, _, _, d3⟩ := leaves_some b3
  rw [e₂] at e₃
  have e₃ := (Prod.mk.inj (Option.some.inj e₃)).2
  subst e₃
  obtain ⟨_, _, e₄, _, _, d4⟩ := leaves_some a4
  rw [e₁] at e₄
  have e₄ := (Prod.mk.inj (Option.some.inj e₄)).2
  subst e₄
  have hw : Demo.spoiltWorld = w₁.put "/r/q.graphql" "quary Q" := by unfold Demo.spoiltWorld; rw [e₁]
  have hE : EditedAt (fun id => id = "/r/q.graphql") w₁ Demo.spoiltWorld := by
    rw [hw]
    exact ⟨rfl, rfl, fun id h => by simp [World.put, h]⟩
  obtain ⟨m, names, p1, p2, p3⟩ := importsB_sound c2
  obtain ⟨g, q1, q2, q3⟩ := exportsNotB_sound c3
  exact ⟨_, _, ms₁, ms₂, w₁, v', m, g, names, ⟨⟨_, rfl⟩, h1, h2, e₁⟩, h0, hE, ⟨⟨_, rfl⟩, h3, h4, e₂⟩, d2.trans d4.symm,
    ⟨_, d2, p1⟩, p2, p3, ⟨_, d3, q1⟩, q2, q3⟩

/-- If no document of the demo tree imports anything, reads and writes are apart. -/
theorem importless_apart {w : World} (hres : w.resolve = Path.display)
    (himp : ∀ p c, FoundIn Demo.fileTree p → w.read p = .ok c → importsOf c = []) :
    NoOutputRead w Demo.cfg Demo.fileTree ∧ OutputsDistinct w Demo.fileTree ∧
      GlobalsApart w Demo.cfg ⟨true, ["r"]⟩ Demo.fileTree := by
  obtain ⟨hno, hd, hga⟩ := C114_paths_apart C114_demo.1
  have hboth : w.resolve = Demo.runWorld.resolve := hres
  have hreads : ∀ p q, FoundIn Demo.fileTree p → Spec.Reads w Demo.cfg p q → q = p := by
    intro p q hp hq
    induction hq with
    | self => rfl
    | imported _ hr hi ih =>
      subst ih
      obtain ⟨h1, _⟩ := hi
      rw [himp _ _ hp hr] at h1
      cases h1
  have hout : ∀ id, IsOutput w Demo.fileTree id → IsOutput Demo.runWorld Demo.fileTree id := by
    rintro id ⟨p, hp, rfl⟩
    exact ⟨p, hp, congrFun hboth _⟩
  have hgid : globalsId w Demo.cfg ⟨true, ["r"]⟩ = globalsId Demo.runWorld Demo.cfg ⟨true, ["r"]⟩ := congrFun hboth _
  refine ⟨?_, ?_, ?_⟩
  · intro p q hp hq ho
    obtain rfl := hreads p q hp hq
    have ho := hout _ ho
    rw [hboth] at ho
    exact hno q q hp .self ho
  · intro p q hp hq h
    rw [hboth] at h
    exact hd p q hp hq h
  · rw [GlobalsApart, hgid]
    refine ⟨fun ho => hga.1 (hout _ ho), fun p q hp hq => ?_⟩
    obtain rfl := hreads p q hp hq
    rw [hboth]
    exact hga.2 q q hp .self

/-- The demo project with a mistake in the query, whose output is still there. -/
def Demo.halfWorld : World where
  resolve := Path.display
  disk := fun id =>
    if id = "/r/q.graphql" then .ok "quary Q"
    else if id = "/r/f.graphql" then .ok "fragment F"
    else if id = "/r/q.graphql.d.ts" then .ok "old"
    else .error "missing"
  writeErr := fun _ => none

/-- A run over it. -/
def halfRun : PoolSt World :=
  (PoolSt.init Demo.halfWorld 1 Demo.fileTree).run
    (poolCompile (fun _ => .reversed) 9 Demo.runExt Demo.cfg Demo.respSchema) 1 Demo.fileSched

/-- Its end. -/
def halfEnd : Option (List Msg × World) :=
  finishWork .inOrder 9 Demo.cfg Demo.respSchema halfRun.world ⟨true, ["r"]⟩ halfRun.aggregate

/-- The fragment of the demo project is generated with the same text whether or not the query has a mistake; if it
has, its output stays as it was. -/
theorem C137_demo : ∃ s₁ s₂ ms₁ ms₂ w₁ v',
    RunsTo (fun _ => .inOrder) .reversed 9 Demo.runExt Demo.cfg Demo.respSchema ⟨true, ["r"]⟩ Demo.fileTree 1
      Demo.runWorld s₁ ms₁ w₁ ∧
    RunsTo (fun _ => .reversed) .inOrder 9 Demo.runExt Demo.cfg Demo.respSchema ⟨true, ["r"]⟩ Demo.fileTree 1
      Demo.halfWorld s₂ ms₂ v' ∧ (printExitInfo .plain ms₂).code ≠ 0 ∧
    Generable Demo.runExt Demo.respJson Demo.respSchema Demo.runWorld Demo.cfg Demo.fPath ∧
    SharedDocument Demo.cfg Demo.fPath Demo.runWorld Demo.halfWorld ∧
    (∃ text, w₁.disk "/r/f.graphql.d.ts" = .ok text ∧ v'.disk "/r/f.graphql.d.ts" = .ok text) ∧
    ¬ Generable Demo.runExt Demo.respJson Demo.respSchema Demo.halfWorld Demo.cfg Demo.qPath ∧
    v'.disk "/r/q.graphql.d.ts" = .ok "old" := by
  obtain ⟨hno, hd, hga⟩ := C114_paths_apart C114_demo.1
  have hf : FoundIn Demo.fileTree Demo.fPath := (mem_filesOf _ _).1 (by decide +kernel)
  have hq : FoundIn Demo.fileTree Demo.qPath := (mem_filesOf _ _).1 (by decide +kernel)
  obtain ⟨hno₂, hd₂, hga₂⟩ := importless_apart (w := Demo.halfWorld) rfl (by
    intro p c hp hc
    have i1 : importsOf "quary Q" = [] := by decide +kernel
    have i2 : importsOf "fragment F" = [] := by decide +kernel
    rcases demo_found hp with rfl | rfl
    · have e : Demo.halfWorld.read Demo.qPath = .ok "quary Q" := rfl
      rw [e] at hc
      rw [← Except.ok.inj hc, i1]
    · have e : Demo.halfWorld.read Demo.fPath = .ok "fragment F" := rfl
      rw [e] at hc
      rw [← Except.ok.inj hc, i2])
  have a1 : (leaves fullRun fullEnd "/r/f.graphql.d.ts").isSome = true := by decide +kernel
  have a2 : (halfRun.finished && (pending halfRun).isEmpty && match halfEnd with
        | some (ms, _) => (printExitInfo .plain ms).code != 0
        | none => false) = true := by decide +kernel
  obtain ⟨t₁, b1⟩ := Option.isSome_iff_exists.1 a1
  obtain ⟨ms₁, w₁, e₁, h1, h2, d1⟩ := leaves_some b1
  have R₁ : RunsTo (fun _ => .inOrder) .reversed 9 Demo.runExt Demo.cfg Demo.respSchema ⟨true, ["r"]⟩
      Demo.fileTree 1 Demo.runWorld fullRun ms₁ w₁ := ⟨⟨_, rfl⟩, h1, h2, e₁⟩
  cases e₂ : halfEnd with
  | none => rw [e₂] at a2; simp at a2
  | some x =>
    obtain ⟨ms₂, v'⟩ := x
    rw [e₂] at a2
    simp only [Bool.and_eq_true, List.isEmpty_iff, bne_iff_ne] at a2
    obtain ⟨⟨h3, h4⟩, h5⟩ := a2
    have R₂ : RunsTo (fun _ => .reversed) .inOrder 9 Demo.runExt Demo.cfg Demo.respSchema ⟨true, ["r"]⟩
        Demo.fileTree 1 Demo.halfWorld halfRun ms₂ v' := ⟨⟨_, rfl⟩, h3, h4, e₂⟩
    have of : Demo.runWorld.resolve (outputPath Demo.fPath) = "/r/f.graphql.d.ts" := by decide +kernel
    have oq : Demo.halfWorld.resolve (outputPath Demo.qPath) = "/r/q.graphql.d.ts" := by decide +kernel
    have G : Generable Demo.runExt Demo.respJson Demo.respSchema Demo.runWorld Demo.cfg Demo.fPath := by
      by_contra hG
      have := (C137_what_a_run_leaves hno hd hga resp_valid resp_loads demo_members R₁ hf (demo_names hf)).2 hG
      rw [of, d1] at this
      have hm : Demo.runWorld.disk "/r/f.graphql.d.ts" = .error "missing" := rfl
      rw [hm] at this
      cases this
    have S : SharedDocument Demo.cfg Demo.fPath Demo.runWorld Demo.halfWorld := by
      refine ⟨fun q h => ?_, rfl, rfl⟩
      have : q = Demo.fPath := by
        have rf : Demo.runWorld.read Demo.fPath = .ok "fragment F" := rfl
        induction h with
        | self => rfl
        | imported _ hr hi ih =>
          subst ih
          rw [rf] at hr
          have hr := Except.ok.inj hr
          subst hr
          exact absurd hi demo_imports_f
      subst this
      rfl
    have N : ¬ Generable Demo.runExt Demo.respJson Demo.respSchema Demo.halfWorld Demo.cfg Demo.qPath := by
      rintro ⟨c, d, _, _, hc, hp, _⟩
      have e : Demo.halfWorld.read Demo.qPath = .ok "quary Q" := rfl
      rw [e] at hc
      have hc := Except.ok.inj hc
      subst hc
      have : Demo.runExt.parse "quary Q" = .error "syntax error" := rfl
      rw [this] at hp
      cases hp
    have hn : NamesDiffer Demo.runExt Demo.halfWorld Demo.cfg Demo.qPath := by
      intro c d _ _ hc hp
      have e : Demo.halfWorld.read Demo.qPath = .ok "quary Q" := rfl
      rw [e] at hc
      have hc := Except.ok.inj hc
      subst hc
      have : Demo.runExt.parse "quary Q" = .error "syntax error" := rfl
      rw [this] at hp
      cases hp
    refine ⟨_, _, ms₁, ms₂, w₁, v', R₁, R₂, h5, G, S, ?_, N, ?_⟩
    · have := C137_others_do_not_matter hno hd hga resp_valid resp_loads demo_members R₁ hno₂ hd₂ hga₂ R₂ hf hf S
        (run_hashProof hf) G rfl
      rw [S.resolve, of] at this
      exact this
    · have := (C137_what_a_run_leaves hno₂ hd₂ hga₂ resp_valid resp_loads demo_members R₂ hq hn).2 N
      rw [oq] at this
      exact this

/-- After the second run of the witness the globals file holds what the document without a mistake uses, and nothing
else. -/
theorem C137_globals_demo : ∃ s₂ ms₂ v' names decls,
    NoOutputRead Demo.spoiltWorld Demo.cfg Demo.fileTree ∧ OutputsDistinct Demo.spoiltWorld Demo.fileTree ∧
    GlobalsApart Demo.spoiltWorld Demo.cfg ⟨true, ["r"]⟩ Demo.fileTree ∧ NamedAsRegistered Demo.respSchema ∧
    RunsTo (fun _ => .inOrder) .inOrder 9 Demo.faultExt Demo.cfg Demo.respSchema ⟨true, ["r"]⟩ Demo.fileTree 1
      Demo.spoiltWorld s₂ ms₂ v' ∧
    (∀ g, UsedGlobal (fun _ => .inOrder) 9 Demo.faultExt Demo.cfg Demo.respSchema Demo.spoiltWorld Demo.fileTree g ↔
      g = "Page") ∧
    (∀ n, n ∈ names ↔ GlobalName Demo.respSchema ["Page"] n) ∧
    List.Forall₂ (DeclaresGlobal Demo.cfg.toTsConfig Demo.respSchema) names decls ∧
    v'.disk (globalsId Demo.spoiltWorld Demo.cfg ⟨true, ["r"]⟩) =
      .ok (generatedHeader ++ joinWith "\n\n" decls) := by
  have i1 : importsOf "quary Q" = [] := by decide +kernel
  have i2 : importsOf "query P" = [] := by decide +kernel
  have i3 : importsOf "query Q" = [] := by decide +kernel
  obtain ⟨hno, hd, hga⟩ := importless_apart (w := Demo.faultWorld) rfl (by
    intro p c hp hc
    rcases demo_found hp with rfl | rfl
    · have e : Demo.faultWorld.read Demo.qPath = .ok "query Q" := rfl
      rw [e] at hc
      rw [← Except.ok.inj hc, i3]
    · have e : Demo.faultWorld.read Demo.fPath = .ok "query P" := rfl
      rw [e] at hc
      rw [← Except.ok.inj hc, i2])
  have a1 : leaves soundRun soundEnd "/r/f.graphql" = some "query P" := by decide +kernel
  have a2 : (leaves spoiltRun spoiltEnd "/r/globals.ts").isSome = true := by decide +kernel
  have a3 : spoiltRun.aggregate.2 = ["Page"] := by decide +kernel
  have a4 : (match compileGlobals .inOrder 9 Demo.cfg.toTsConfig Demo.respSchema ["Page"] with
    | some (.ok _) => true | _ => false) = true := by decide +kernel
  obtain ⟨ms₁, w₁, e₁, h1, h2, d1⟩ := leaves_some a1
  obtain ⟨t₂, b2⟩ := Option.isSome_iff_exists.1 a2
  obtain ⟨ms₂, v', e₂, h3, h4, d2⟩ := leaves_some b2
  have A₁ := after_run hno hd hga ⟨⟨_, rfl⟩, h1, h2, e₁⟩
  have hw : Demo.spoiltWorld = w₁.put "/r/q.graphql" "quary Q" := by unfold Demo.spoiltWorld; rw [e₁]
  have R₂ : RunsTo (fun _ => .inOrder) .inOrder 9 Demo.faultExt Demo.cfg Demo.respSchema ⟨true, ["r"]⟩
      Demo.fileTree 1 Demo.spoiltWorld spoiltRun ms₂ v' := ⟨⟨_, rfl⟩, h3, h4, e₂⟩
  have hres : Demo.spoiltWorld.resolve = Path.display := by rw [hw]; exact A₁.resolve
  have hwe : Demo.spoiltWorld.writeErr = fun _ => none := by rw [hw]; exact A₁.writeErr
  obtain ⟨hno₂, hd₂, hga₂⟩ := importless_apart hres (by
    intro p c hp hc
    unfold World.read at hc
    rw [hres, hw] at hc
    rcases demo_found hp with rfl | rfl
    · have : Demo.qPath.display = "/r/q.graphql" := by decide +kernel
      rw [this] at hc
      simp only [World.put, if_true] at hc
      rw [← Except.ok.inj hc, i1]
    · have : Demo.fPath.display = "/r/f.graphql" := by decide +kernel
      rw [this] at hc
      simp only [World.put] at hc
      rw [if_neg (by decide), d1] at hc
      rw [← Except.ok.inj hc, i2])
  have A₂ := after_run hno₂ hd₂ hga₂ R₂
  have hused : ∀ g, UsedGlobal (fun _ => .inOrder) 9 Demo.faultExt Demo.cfg Demo.respSchema Demo.spoiltWorld
      Demo.fileTree g ↔ g = "Page" := by
    intro g
    rw [← usedGlobal_iff A₂, a3, List.mem_singleton]
  have hval : ∀ n, GlobalName Demo.respSchema ["Page"] n → ValidGlobal Demo.respSchema n := by
    cases hc : compileGlobals .inOrder 9 Demo.cfg.toTsConfig Demo.respSchema ["Page"] with
    | none => rw [hc] at a4; cases a4
    | some r =>
      cases r with
      | error _ => rw [hc] at a4; cases a4
      | ok t => exact (C32_globals_ok_iff .inOrder 9 Demo.cfg.toTsConfig Demo.respSchema ["Page"] _ hc).1 ⟨t, rfl⟩
  have hreg : NamedAsRegistered Demo.respSchema := ofJson_namedAsRegistered resp_loads
  obtain ⟨used, names, decls, k1, k2, k3, k4⟩ := C137_globals_file hno₂ hd₂ hga₂ hreg R₂
    (fun used hu n hn => hval n ((globalName_congr (fun g => by rw [hu, hused, List.mem_singleton]) n).1 hn))
    (by rw [hwe]) ⟨"Page", (hused _).2 rfl⟩
  refine ⟨_, ms₂, v', names, decls, hno₂, hd₂, hga₂, hreg, R₂, hused, fun n => ?_, k3, k4⟩
  rw [k2]
  refine globalName_congr (fun g => ?_) n
  rw [k1, ← C137_globals_of_generated_documents hno₂ hd₂ hga₂ R₂, hused, List.mem_singleton]

end Qlc
