import Verif.Props.FewerDocuments
/-
C147: what the globals file says about a type depends on nothing but the schema's description of that type.
-/
set_option autoImplicit false

namespace Qlc
open Spec

/-- **C147.** In any two globals files, made with the same options from whatever schemas and used names, a type that both
schemas describe alike has the same declaration, if it has one in both. -/
theorem C147_described_alike_declared_alike {schema schema' : Schema} (hk : InputFieldsOnce schema)
    (hk' : InputFieldsOnce schema') (hreg : NamedAsRegistered schema) (hreg' : NamedAsRegistered schema') (ω ω' : Hash)
    (fuel fuel' : Nat) (cfg : TsConfig) {used used' : List String} {text text' : String}
    (h : compileGlobals ω fuel cfg schema used = some (.ok text))
    (h' : compileGlobals ω' fuel' cfg schema' used' = some (.ok text')) :
    ∃ ds ds', GlobalsText cfg schema used ds text ∧ GlobalsText cfg schema' used' ds' text' ∧
      ∀ n t t', (n, t) ∈ ds → (n, t') ∈ ds' → schema.getType n = schema'.getType n → t = t' := by
  obtain ⟨names, T⟩ := globals_pieces hk hreg ω fuel cfg used h
  obtain ⟨names', T'⟩ := globals_pieces hk' hreg' ω' fuel' cfg used' h'
  refine ⟨_, _, T, T', ?_⟩
  intro n t t' hm hm' e
  obtain ⟨a, _, ha⟩ := List.mem_map.1 hm
  obtain ⟨b, _, hb⟩ := List.mem_map.1 hm'
  obtain ⟨rfl, rfl⟩ := Prod.mk.inj ha
  obtain ⟨rfl, rfl⟩ := Prod.mk.inj hb
  unfold declOf
  rw [e]

section
variable {ext ext' : Ext} {cfg : CompileConfig} {schema schema' : Schema} {w v : World} {root root' : Entry}
  {rootPath rootPath' : Path} {doc doc' : JSchema}

/-- **C147.** The globals files that any two runs leave, of whatever projects and with whatever schemas, if both runs end with
status 0 and use a global type, declare every type alike that both schemas describe alike and that both files declare. -/
theorem C147_runs {ω₁ ω₂ : Path → Hash} {ω₁' ω₂' : Hash} {fuel₁ fuel₂ threads₁ threads₂ : Nat}
    {s₁ s₂ : PoolSt World} {ms₁ ms₂ : List Msg} {w₁ v₁ : World} (paint : Paint)
    (hr : NoOutputRead w cfg root) (hd : OutputsDistinct w root) (hg : GlobalsApart w cfg rootPath root)
    (hr' : NoOutputRead v cfg root') (hd' : OutputsDistinct v root') (hg' : GlobalsApart v cfg rootPath' root')
    (hs : Schema.ofJson doc = .ok schema) (hs' : Schema.ofJson doc' = .ok schema')
    (R₁ : RunsTo ω₁ ω₁' fuel₁ ext cfg schema rootPath root threads₁ w s₁ ms₁ w₁)
    (R₂ : RunsTo ω₂ ω₂' fuel₂ ext' cfg schema' rootPath' root' threads₂ v s₂ ms₂ v₁)
    (h0 : (printExitInfo paint ms₁).code = 0) (h0' : (printExitInfo paint ms₂).code = 0)
    (hu : ∃ g, UsedGlobal ω₁ fuel₁ ext cfg schema w root g) (hu' : ∃ g, UsedGlobal ω₂ fuel₂ ext' cfg schema' v root' g) :
    ∃ used used' ds ds' text text',
      (∀ g, g ∈ used ↔ UsedGlobal ω₁ fuel₁ ext cfg schema w root g) ∧
      (∀ g, g ∈ used' ↔ UsedGlobal ω₂ fuel₂ ext' cfg schema' v root' g) ∧
      GlobalsText cfg.toTsConfig schema used ds text ∧ GlobalsText cfg.toTsConfig schema' used' ds' text' ∧
      (∀ n t t', (n, t) ∈ ds → (n, t') ∈ ds' → schema.getType n = schema'.getType n → t = t') ∧
      w₁.disk (globalsId w cfg rootPath) = .ok text ∧ v₁.disk (globalsId v cfg rootPath') = .ok text' := by
  obtain ⟨t, hc, ht⟩ := run_globals paint hr hd hg R₁ h0 hu
  obtain ⟨t', hc', ht'⟩ := run_globals paint hr' hd' hg' R₂ h0' hu'
  obtain ⟨ds, ds', T, T', h⟩ := C147_described_alike_declared_alike (ofJson_inputFieldsOnce hs) (ofJson_inputFieldsOnce hs')
    (ofJson_namedAsRegistered hs) (ofJson_namedAsRegistered hs') _ _ _ _ cfg.toTsConfig hc hc'
  exact ⟨_, _, ds, ds', t, t', usedGlobal_iff (after_run hr hd hg R₁), usedGlobal_iff (after_run hr' hd' hg' R₂), T, T', h,
    ht, ht'⟩

end

/-! ### An example -/

/-- The run over the two documents with the grown schema, which has another enum `Role` but the same `Page`. -/
def regrownRun : PoolSt World :=
  (PoolSt.init Demo.faultWorld 1 Demo.fileTree).run
    (poolCompile (fun _ => .reversed) 9 Demo.faultExt Demo.cfg Demo.grownSchema) 1 Demo.fileSched

/-- Its end. -/
def regrownEnd : Option (List Msg × World) :=
  finishWork .reversed 9 Demo.cfg Demo.grownSchema regrownRun.world ⟨true, ["r"]⟩ regrownRun.aggregate

/-- The enum `Role` gets a value: the globals file changes, but `Page` is declared in both, by the same words. -/
theorem C147_demo : ∃ s₁ s₂ ms₁ ms₂ w₁ v₁ used used' ds ds' text text' page,
    RunsTo (fun _ => .inOrder) .inOrder 9 Demo.faultExt Demo.cfg Demo.respSchema ⟨true, ["r"]⟩ Demo.fileTree 1
      Demo.faultWorld s₁ ms₁ w₁ ∧
    RunsTo (fun _ => .reversed) .reversed 9 Demo.faultExt Demo.cfg Demo.grownSchema ⟨true, ["r"]⟩ Demo.fileTree 1
      Demo.faultWorld s₂ ms₂ v₁ ∧
    GlobalsText Demo.cfg.toTsConfig Demo.respSchema used ds text ∧
    GlobalsText Demo.cfg.toTsConfig Demo.grownSchema used' ds' text' ∧ text ≠ text' ∧
    ("Page", page) ∈ ds ∧ ("Page", page) ∈ ds' ∧
    w₁.disk "/r/globals.ts" = .ok text ∧ v₁.disk "/r/globals.ts" = .ok text' := by
  have a1 : (endsWith soundRun soundEnd).isSome = true := by decide +kernel
  have a2 : (endsWith regrownRun regrownEnd).isSome = true := by decide +kernel
  have a3 : endsWith soundRun soundEnd ≠ endsWith regrownRun regrownEnd := by decide +kernel
  have a4 : "Page" ∈ soundRun.aggregate.2 := by decide +kernel
  have a5 : "Page" ∈ regrownRun.aggregate.2 := by decide +kernel
  obtain ⟨t₁, b1⟩ := Option.isSome_iff_exists.1 a1
  obtain ⟨t₂, b2⟩ := Option.isSome_iff_exists.1 a2
  rw [b1, b2] at a3
  obtain ⟨ms₁, w₁, e₁, h1, h2, h0, d1⟩ := endsWith_some b1
  obtain ⟨ms₂, v₁, e₂, h3, h4, h0', d2⟩ := endsWith_some b2
  have i2 : importsOf "query P" = [] := by
    have : (importsOf "query P").length = 0 := by decide +kernel
    exact List.length_eq_zero_iff.1 this
  obtain ⟨hno, hd, hga⟩ := importless_apart (w := Demo.faultWorld) rfl (by
    intro p c hp hc
    rcases demo_found hp with rfl | rfl
    · have e : Demo.faultWorld.read Demo.qPath = .ok "query Q" := rfl
      rw [e] at hc
      rw [← Except.ok.inj hc, solo_no_imports]
    · have e : Demo.faultWorld.read Demo.fPath = .ok "query P" := rfl
      rw [e] at hc
      rw [← Except.ok.inj hc, i2])
  have R₁ : RunsTo (fun _ => .inOrder) .inOrder 9 Demo.faultExt Demo.cfg Demo.respSchema ⟨true, ["r"]⟩
      Demo.fileTree 1 Demo.faultWorld soundRun ms₁ w₁ := ⟨⟨_, rfl⟩, h1, h2, e₁⟩
  have R₂ : RunsTo (fun _ => .reversed) .reversed 9 Demo.faultExt Demo.cfg Demo.grownSchema ⟨true, ["r"]⟩
      Demo.fileTree 1 Demo.faultWorld regrownRun ms₂ v₁ := ⟨⟨_, rfl⟩, h3, h4, e₂⟩
  have u1 := (usedGlobal_iff (after_run hno hd hga R₁) _).1 a4
  have u2 := (usedGlobal_iff (after_run hno hd hga R₂) _).1 a5
  obtain ⟨used, used', ds, ds', t, t', k1, k2, T, T', k, x1, x2⟩ := C147_runs .plain hno hd hga hno hd hga resp_loads
    grown_loads R₁ R₂ h0 h0' ⟨_, u1⟩ ⟨_, u2⟩
  have hid : globalsId Demo.faultWorld Demo.cfg ⟨true, ["r"]⟩ = "/r/globals.ts" := by decide +kernel
  rw [hid] at x1 x2
  have m1 := (T.names "Page").2 (.used ((k1 _).2 u1))
  have m2 := (T'.names "Page").2 (.used ((k2 _).2 u2))
  obtain ⟨⟨n1, p1⟩, y1, rfl⟩ := List.mem_map.1 m1
  obtain ⟨⟨n2, p2⟩, y2, z2⟩ := List.mem_map.1 m2
  simp only at z2 y1
  subst z2
  have e : Demo.respSchema.getType "Page" = Demo.grownSchema.getType "Page" := by rfl
  have e := k "Page" p1 p2 y1 y2 e
  subst e
  refine ⟨_, _, ms₁, ms₂, w₁, v₁, used, used', ds, ds', t, t', p1, R₁, R₂, T, T', ?_, y1, y2, x1, x2⟩
  rintro rfl
  rw [d1] at x1
  rw [d2] at x2
  exact a3 (by rw [Except.ok.inj x1, Except.ok.inj x2])

end Qlc
