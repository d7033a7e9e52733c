import Verif.Spec.Edit
import Verif.Props.MoreDocuments
/-
C145: what becomes of the generated files when documents are removed.
-/
set_option autoImplicit false

namespace Qlc
open Spec

section
variable {ext : Ext} {cfg : CompileConfig} {schema : Schema} {w v : World} {root root' : Entry} {rootPath : Path}
  {doc : JSchema}

/-- **C145.** A run ends with status 0.  Then documents are removed, and perhaps other files edited, but not generated
ones, and the program runs again.  However that ends, the outputs of the removed documents are still there, as they were
generated from the documents; and if no document that is left uses a global type, so is the old globals file. -/
theorem C145_outputs_of_removed_documents_stay {ω₁ ω₂ : Path → Hash} {ω₁' ω₂' : Hash}
    {fuel₁ fuel₂ threads₁ threads₂ : Nat} {s₁ s₂ : PoolSt World} {ms₁ ms₂ : List Msg} {w₁ v₁ : World} (paint : Paint)
    (hr : NoOutputRead w cfg root) (hd : OutputsDistinct w root) (hg : GlobalsApart w cfg rootPath root)
    (hr' : NoOutputRead v cfg root') (hd' : OutputsDistinct v root') (hg' : GlobalsApart v cfg rootPath root')
    (R₁ : RunsTo ω₁ ω₁' fuel₁ ext cfg schema rootPath root threads₁ w s₁ ms₁ w₁)
    (h0 : (printExitInfo paint ms₁).code = 0)
    {E : String → Prop} (hE : EditedAt E w₁ v) (hE₁ : ∀ id, E id → ¬ IsOutput w root id)
    (hE₂ : ¬ E (globalsId w cfg rootPath)) (hroot : ∀ p, FoundIn root' p → FoundIn root p)
    (R₂ : RunsTo ω₂ ω₂' fuel₂ ext cfg schema rootPath root' threads₂ v s₂ ms₂ v₁) :
    (∀ p, FoundIn root p → ¬ FoundIn root' p → ∃ contents d st op ws c,
      Generates (ω₁ p) fuel₁ ext cfg schema w p contents d st op ws c ∧
      v₁.disk (w.resolve (outputPath p)) = .ok c.contents) ∧
    ((¬ ∃ g, UsedGlobal ω₂ fuel₂ ext cfg schema v root' g) →
      v₁.disk (globalsId w cfg rootPath) = w₁.disk (globalsId w cfg rootPath)) := by
  have A := after_run hr hd hg R₁
  have B := after_run hr' hd' hg' R₂
  have hres : v.resolve = w.resolve := hE.1.trans A.resolve
  have hgid : globalsId v cfg rootPath = globalsId w cfg rootPath := by unfold globalsId; rw [hres]
  refine ⟨fun p hp hn => ?_, fun hno => ?_⟩
  · obtain ⟨contents, d, st, op, ws, c, G, hdisk, _⟩ := run_file paint hr hd hg R₁ h0 hp
    refine ⟨contents, d, st, op, ws, c, G, ?_⟩
    rw [B.others, hE.2.2, hdisk]
    · exact fun he => hE₁ _ he ⟨p, hp, rfl⟩
    · rintro ⟨p', hp', e⟩
      rw [hres] at e
      exact hn (by rw [hd p p' hp (hroot p' hp') e]; exact hp')
    · intro e
      exact hg.1 ⟨p, hp, by rw [← hgid, ← e]⟩
  · rcases B.globals with ⟨_, _, h⟩ | ⟨hne, _⟩
    · rw [hgid] at h
      rw [h, hE.2.2 _ hE₂]
    · exfalso
      cases hu : s₂.aggregate.2 with
      | nil => exact hne hu
      | cons g _ => exact hno ⟨g, (usedGlobal_iff B g).1 (by rw [hu]; simp)⟩

/-- **C145.** If the second run ends with status 0, too, and the documents that are left read no edited file, then their
outputs are the same as before; and if one of them uses a global type, then the globals file holds a part of the
declarations that it held before, word for word and in the same order: those of the types which the documents that are left
reach. -/
theorem C145_only_declarations_go {ω₁ ω₂ : Path → Hash} {ω₁' ω₂' : Hash}
    {fuel₁ fuel₂ threads₁ threads₂ : Nat} {s₁ s₂ : PoolSt World} {ms₁ ms₂ : List Msg} {w₁ v₁ : World} (paint : Paint)
    (hr : NoOutputRead w cfg root) (hd : OutputsDistinct w root) (hg : GlobalsApart w cfg rootPath root)
    (hr' : NoOutputRead v cfg root') (hd' : OutputsDistinct v root') (hg' : GlobalsApart v cfg rootPath root')
    (hv : ValidDoc doc) (hs : Schema.ofJson doc = .ok schema)
    (R₁ : RunsTo ω₁ ω₁' fuel₁ ext cfg schema rootPath root threads₁ w s₁ ms₁ w₁)
    (h0 : (printExitInfo paint ms₁).code = 0)
    {E : String → Prop} (hE : EditedAt E w₁ v) (hroot : ∀ p, FoundIn root' p → FoundIn root p)
    (hun : ∀ p, FoundIn root' p → ¬ Affected E w cfg p)
    (hh : ∀ p, FoundIn root' p → HashProof ext schema v cfg p)
    (R₂ : RunsTo ω₂ ω₂' fuel₂ ext cfg schema rootPath root' threads₂ v s₂ ms₂ v₁)
    (h0' : (printExitInfo paint ms₂).code = 0) :
    (∀ p, FoundIn root' p →
      v₁.disk (w.resolve (outputPath p)) = w₁.disk (w.resolve (outputPath p))) ∧
    ((∃ g, UsedGlobal ω₂ fuel₂ ext cfg schema v root' g) → ∃ used used' ds ds' text text',
      (∀ g, g ∈ used ↔ UsedGlobal ω₁ fuel₁ ext cfg schema w root g) ∧
      (∀ g, g ∈ used' ↔ UsedGlobal ω₂ fuel₂ ext cfg schema v root' g) ∧
      GlobalsText cfg.toTsConfig schema used ds text ∧ GlobalsText cfg.toTsConfig schema used' ds' text' ∧
      ds'.Sublist ds ∧
      w₁.disk (globalsId w cfg rootPath) = .ok text ∧ v₁.disk (globalsId w cfg rootPath) = .ok text') := by
  have A := after_run hr hd hg R₁
  have hres : v.resolve = w.resolve := hE.1.trans A.resolve
  have hgid : globalsId v cfg rootPath = globalsId w cfg rootPath := by unfold globalsId; rw [hres]
  have hreads : ∀ p, FoundIn root' p → ∀ q, Spec.Reads w cfg p q → v.read q = w.read q := by
    intro p hp q hq
    unfold World.read
    rw [hres, hE.2.2 _ (fun he => hun p hp ⟨q, hq, he⟩),
      A.others _ (hr p q (hroot p hp) hq) (hg.2 p q (hroot p hp) hq)]
  have hshared : ∀ p, FoundIn root' p → SharedDocument cfg p v w := by
    intro p hp
    exact ⟨fun q hq => (hreads p hp q ((reads_congr cfg w v p (hreads p hp) q).1 hq)).symm, hres.symm,
      (hE.2.1.trans A.writeErr).symm⟩
  obtain ⟨c1, _, c3⟩ := C144_more_documents paint hr' hd' hg' hr hd hg hv hs hroot hshared hh R₂ R₁ h0' h0
  refine ⟨fun p hp => ?_, fun hex => ?_⟩
  · obtain ⟨t, a, b⟩ := c1 p hp
    rw [hres] at a
    rw [a, b]
  · obtain ⟨used', used, ds', ds, text', text, u', u, T', T, hsub, d', d⟩ := c3 hex
    rw [hgid] at d'
    exact ⟨used, used', ds, ds', text, text', u, u', T, T', hsub, d, d'⟩

end

/-! ### An example -/

/-- The files after the run over both documents, with `/r/f.graphql` removed. -/
def Demo.prunedWorld : World :=
  match soundEnd with
  | some (_, w) => { w with disk := fun id => if id = "/r/f.graphql" then .error "missing" else w.disk id }
  | none => Demo.faultWorld

/-- The run over what is left. -/
def prunedRun : PoolSt World :=
  (PoolSt.init Demo.prunedWorld 1 Demo.soloTree).run
    (poolCompile (fun _ => .reversed) 9 Demo.faultExt Demo.cfg Demo.respSchema) 1 Demo.fileSched

/-- Its end. -/
def prunedEnd : Option (List Msg × World) :=
  finishWork .reversed 9 Demo.cfg Demo.respSchema prunedRun.world ⟨true, ["r"]⟩ prunedRun.aggregate

/-- **C145, dangling imports (negation witness).** Two documents use different globals, and a run ends with status 0.  Then
the second document is removed and the program runs again, also with status 0.  The output of the removed document stays, as
C145 says, but the globals file has lost the input object which that output imports, and the other declarations are as they
were. -/
theorem C145_demo : ∃ s₁ s₂ ms₁ ms₂ w₁ v₁ m g names,
    RunsTo (fun _ => .inOrder) .inOrder 9 Demo.faultExt Demo.cfg Demo.respSchema ⟨true, ["r"]⟩ Demo.fileTree 1
      Demo.faultWorld s₁ ms₁ w₁ ∧ (printExitInfo .plain ms₁).code = 0 ∧
    EditedAt (fun id => id = "/r/f.graphql") w₁ Demo.prunedWorld ∧
    RunsTo (fun _ => .reversed) .reversed 9 Demo.faultExt Demo.cfg Demo.respSchema ⟨true, ["r"]⟩ Demo.soloTree 1
      Demo.prunedWorld s₂ ms₂ v₁ ∧ (printExitInfo .plain ms₂).code = 0 ∧
    (∃ contents d st op ws c, Generates .inOrder 9 Demo.faultExt Demo.cfg Demo.respSchema Demo.faultWorld Demo.fPath
      contents d st op ws c ∧ v₁.disk "/r/f.graphql.d.ts" = .ok c.contents) ∧
    v₁.disk "/r/q.graphql.d.ts" = w₁.disk "/r/q.graphql.d.ts" ∧
    (∃ used used' ds ds' text text', GlobalsText Demo.cfg.toTsConfig Demo.respSchema used ds text ∧
      GlobalsText Demo.cfg.toTsConfig Demo.respSchema used' ds' text' ∧ ds'.Sublist ds ∧
      w₁.disk "/r/globals.ts" = .ok text ∧ v₁.disk "/r/globals.ts" = .ok text') ∧
    HoldsModule v₁ "/r/f.graphql.d.ts" m ∧ .importType names "globals" ∈ m ∧ "Page" ∈ names ∧
    HoldsModule v₁ "/r/globals.ts" g ∧ (∀ body, .typeAlias "Page" body ∉ g) ∧ ∀ members, .enum "Page" members ∉ g := by
  have a1 : (endsWith soundRun soundEnd).isSome = true := by decide +kernel
  have a2 : (endsWith prunedRun prunedEnd).any (exportsNotB · "Page") = true := by decide +kernel
  have a3 : (leaves prunedRun prunedEnd "/r/f.graphql.d.ts").any (importsB · "Page" "globals") = true := by
    decide +kernel
  have a4 : prunedRun.aggregate.2.isEmpty = false := by decide +kernel
  have a5 : (match Demo.prunedWorld.disk "/r/q.graphql" with | .ok t => decide (t = "query Q") | .error _ => false) = true := by
    decide +kernel
  obtain ⟨t₁, b1⟩ := Option.isSome_iff_exists.1 a1
  obtain ⟨t₂, b2, c2⟩ := (Option.any_eq_true _ _).1 a2
  obtain ⟨t₃, b3, c3⟩ := (Option.any_eq_true _ _).1 a3
  obtain ⟨ms₁, w₁, e₁, h1, h2, h0, d1⟩ := endsWith_some b1
  obtain ⟨ms₂, v₁, e₂, h3, h4, h0', d2⟩ := endsWith_some b2
  obtain ⟨_, _, e₃, _, _, d3⟩ := leaves_some b3
  rw [e₂] at e₃
  have e₃ := (Prod.mk.inj (Option.some.inj e₃)).2
  subst e₃
  have i2 : importsOf "query P" = [] := by
    have : (importsOf "query P").length = 0 := by decide +kernel
    exact List.length_eq_zero_iff.1 this
  obtain ⟨hno, hd, hga⟩ := importless_apart (w := Demo.faultWorld) rfl (by
    intro p c hp hc
    rcases demo_found hp with rfl | rfl
    · have e : Demo.faultWorld.read Demo.qPath = .ok "query Q" := rfl
      rw [e] at hc
      rw [← Except.ok.inj hc, solo_no_imports]
    · have e : Demo.faultWorld.read Demo.fPath = .ok "query P" := rfl
      rw [e] at hc
      rw [← Except.ok.inj hc, i2])
  have R₁ : RunsTo (fun _ => .inOrder) .inOrder 9 Demo.faultExt Demo.cfg Demo.respSchema ⟨true, ["r"]⟩
      Demo.fileTree 1 Demo.faultWorld soundRun ms₁ w₁ := ⟨⟨_, rfl⟩, h1, h2, e₁⟩
  have R₂ : RunsTo (fun _ => .reversed) .reversed 9 Demo.faultExt Demo.cfg Demo.respSchema ⟨true, ["r"]⟩
      Demo.soloTree 1 Demo.prunedWorld prunedRun ms₂ v₁ := ⟨⟨_, rfl⟩, h3, h4, e₂⟩
  have A := after_run hno hd hga R₁
  have hE : EditedAt (fun id => id = "/r/f.graphql") w₁ Demo.prunedWorld := by
    unfold Demo.prunedWorld
    rw [e₁]
    exact ⟨rfl, rfl, fun id h => by simp [h]⟩
  have hres : Demo.prunedWorld.resolve = Path.display := hE.1.trans A.resolve
  have rq : Demo.prunedWorld.read Demo.qPath = .ok "query Q" := by
    unfold World.read
    rw [hres, show Path.display Demo.qPath = "/r/q.graphql" by decide +kernel]
    cases hq : Demo.prunedWorld.disk "/r/q.graphql" with
    | ok t => rw [hq] at a5; rw [of_decide_eq_true a5]
    | error e => rw [hq] at a5; cases a5
  obtain ⟨hno', hd', hga'⟩ := solo_apart hres rq
  have hqf : FoundIn Demo.fileTree Demo.qPath := (mem_filesOf _ _).1 (by decide +kernel)
  have hff : FoundIn Demo.fileTree Demo.fPath := (mem_filesOf _ _).1 (by decide +kernel)
  have hroot : ∀ p, FoundIn Demo.soloTree p → FoundIn Demo.fileTree p := fun p hp => by rw [solo_found hp]; exact hqf
  have hid : globalsId Demo.faultWorld Demo.cfg ⟨true, ["r"]⟩ = "/r/globals.ts" := by decide +kernel
  have oq : Demo.faultWorld.resolve (outputPath Demo.qPath) = "/r/q.graphql.d.ts" := by decide +kernel
  have of : Demo.faultWorld.resolve (outputPath Demo.fPath) = "/r/f.graphql.d.ts" := by decide +kernel
  have hex : ∃ n, UsedGlobal (fun _ => .reversed) 9 Demo.faultExt Demo.cfg Demo.respSchema Demo.prunedWorld
      Demo.soloTree n := by
    have B := after_run hno' hd' hga' R₂
    cases hu : prunedRun.aggregate.2 with
    | nil => rw [hu] at a4; simp at a4
    | cons n _ => exact ⟨n, (usedGlobal_iff B n).1 (by rw [hu]; simp)⟩
  obtain ⟨k1, _⟩ := C145_outputs_of_removed_documents_stay .plain hno hd hga hno' hd' hga' R₁ h0 hE
    (by
      rintro id rfl ⟨p, hp, e⟩
      rcases demo_found hp with rfl | rfl
      · rw [oq] at e; revert e; decide
      · rw [of] at e; revert e; decide)
    (by rw [hid]; decide) hroot R₂
  obtain ⟨k2, k3⟩ := C145_only_declarations_go .plain hno hd hga hno' hd' hga' resp_valid resp_loads R₁ h0 hE hroot
    (by
      rintro p hp ⟨q, hq, e⟩
      rw [solo_found hp] at hq
      rw [solo_reads rfl hq] at e
      revert e
      decide +kernel)
    (fun p hp => by rw [solo_found hp]; exact solo_hashProof rq) R₂ h0'
  have k1 := k1 Demo.fPath hff (fun h => absurd (solo_found h) (by decide))
  have k2 := k2 Demo.qPath ((mem_filesOf _ _).1 (by decide +kernel))
  obtain ⟨used, used', ds, ds', t, t', _, _, T, T', hsub, x1, x2⟩ := k3 hex
  rw [of] at k1
  rw [oq] at k2
  rw [hid] at x1 x2
  obtain ⟨m, names, p1, p2, p3⟩ := importsB_sound c3
  obtain ⟨g, q1, q2, q3⟩ := exportsNotB_sound c2
  exact ⟨_, _, ms₁, ms₂, w₁, v₁, m, g, names, R₁, h0, hE, R₂, h0', k1, k2, ⟨used, used', ds, ds', t, t', T, T', hsub, x1, x2⟩,
    ⟨_, d3, p1⟩, p2, p3, ⟨_, d2, q1⟩, q2, q3⟩

end Qlc
