import Verif.Spec.History
import Verif.Props.Faults
/-
Property C138: what earlier runs have left does not matter.
-/
set_option autoImplicit false

namespace Qlc
open Spec

section
variable {ext : Ext} {cfg : CompileConfig} {schema : Schema} {w v w₁ v₁ : World} {root root₂ : Entry} {rootPath : Path}
  {ω₁ ω₂ : Path → Hash} {ω₁' ω₂' : Hash} {fuel₁ fuel₂ threads₁ threads₂ : Nat} {s₁ s₂ : PoolSt World}
  {ms₁ ms₂ : List Msg}

theorem sameProject_found (S : SameProject cfg root root₂ w v) {p : Path} : FoundIn root₂ p ↔ FoundIn root p := by
  rw [← mem_filesOf, ← mem_filesOf, S.documents.mem_iff]

theorem sameProject_output (S : SameProject cfg root root₂ w v) {id : String} :
    IsOutput v root₂ id ↔ IsOutput w root id := by
  unfold IsOutput
  rw [S.resolve]
  exact exists_congr (fun p => and_congr_left' (sameProject_found S))

theorem sameProject_apart (S : SameProject cfg root root₂ w v) (hr : NoOutputRead w cfg root)
    (hd : OutputsDistinct w root) (hg : GlobalsApart w cfg rootPath root) :
    NoOutputRead v cfg root₂ ∧ OutputsDistinct v root₂ ∧ GlobalsApart v cfg rootPath root₂ := by
  have hgid : globalsId v cfg rootPath = globalsId w cfg rootPath := by unfold globalsId; rw [S.resolve]
  have hread : ∀ p, FoundIn root p → ∀ q, Spec.Reads v cfg p q → Spec.Reads w cfg p q := fun p hp q =>
    (reads_congr cfg w v p (fun q hq => S.sources p q hp hq) q).1
  refine ⟨?_, ?_, ?_, ?_⟩
  · intro p q hp hq
    have hp := (sameProject_found S).1 hp
    rw [sameProject_output S, S.resolve]
    exact hr p q hp (hread p hp q hq)
  · intro p q hp hq
    rw [S.resolve]
    exact hd p q ((sameProject_found S).1 hp) ((sameProject_found S).1 hq)
  · rw [sameProject_output S, hgid]
    exact hg.1
  · intro p q hp hq
    have hp := (sameProject_found S).1 hp
    rw [hgid, S.resolve]
    exact hg.2 p q hp (hread p hp q hq)

/-- **C138.** Two directories hold the same project, but other leftovers of earlier runs: other outputs, another
globals file, or none.  Complete runs in both, with any hash orders, numbers of threads and schedules, end with the
same status; of each output that can be written, and of the globals file if it can, either both runs leave the same
text or neither changes it, which without an error happens to the globals file only, if no document uses a global; and
if the globals can be generated they print the same texts. -/
theorem C138_leftovers_do_not_matter (paint : Paint) (hcon : Consistent schema) (hk : InputFieldsOnce schema)
    (hr : NoOutputRead w cfg root) (hd : OutputsDistinct w root) (hg : GlobalsApart w cfg rootPath root)
    (hh : ∀ p, FoundIn root p → HashProof ext schema w cfg p) (S : SameProject cfg root root₂ w v)
    (R₁ : RunsTo ω₁ ω₁' fuel₁ ext cfg schema rootPath root threads₁ w s₁ ms₁ w₁)
    (R₂ : RunsTo ω₂ ω₂' fuel₂ ext cfg schema rootPath root₂ threads₂ v s₂ ms₂ v₁) :
    (printExitInfo paint ms₁).code = (printExitInfo paint ms₂).code ∧
    (∀ p, FoundIn root p → OutputWritable w p →
      SameText (w.resolve (outputPath p)) w₁ v₁ ∨
        BothUntouched (w.resolve (outputPath p)) w w₁ v v₁ ∧ (printExitInfo paint ms₁).code ≠ 0) ∧
    (w.writeErr (globalsId w cfg rootPath) = none →
      SameText (globalsId w cfg rootPath) w₁ v₁ ∨ BothUntouched (globalsId w cfg rootPath) w w₁ v v₁ ∧
        ((¬ ∃ g, UsedGlobal ω₁ fuel₁ ext cfg schema w root g) ∨ (printExitInfo paint ms₁).code ≠ 0)) ∧
    ((∀ n, GlobalName schema s₁.aggregate.2 n → ValidGlobal schema n) →
      SameReport (printExitInfo paint ms₁).printed (printExitInfo paint ms₂).printed) := by
  obtain ⟨hr₂, hd₂, hg₂⟩ := sameProject_apart S hr hd hg
  have A := after_run hr hd hg R₁
  have B := after_run hr₂ hd₂ hg₂ R₂
  have hgid : globalsId v cfg rootPath = globalsId w cfg rootPath := by unfold globalsId; rw [S.resolve]
  have hgc : ∀ p, FoundIn root p → generateFile (ω₂ p) fuel₂ ext cfg schema v p =
      generateFile (ω₂ p) fuel₂ ext cfg schema w p := fun p hp =>
    generateFile_congr cfg w v (ω₂ p) fuel₂ ext schema p (fun q hq => S.sources p q hp hq)
  have hout : ∀ p, FoundIn root p → (poolCompile ω₂ fuel₂ ext cfg schema v p).1 =
      (poolCompile ω₂ fuel₂ ext cfg schema w p).1 := fun p hp =>
    poolCompile_outcome ω₂ fuel₂ ext cfg schema p w v (hgc p hp) S.resolve S.writeErr
  have hfile := fun p (hp : FoundIn root p) => file_sim hcon (hh p hp) (A.returned p hp)
    (by rw [← hout p hp]; exact B.returned p ((sameProject_found S).2 hp))
  have hu : ∀ n, n ∈ s₁.aggregate.2 ↔ n ∈ s₂.aggregate.2 := by
    intro n
    rw [A.used, B.used]
    refine exists_congr (fun p => ?_)
    rw [sameProject_found S]
    refine and_congr_right (fun hp => ?_)
    rw [(hfile p hp).2.1]
    unfold globalsOfFile
    rw [hout p hp]
  have hms : MsgsSim s₁.aggregate.1 s₂.aggregate.1 := by
    have h2 : ((filesOf root).flatMap (messagesOfFile ω₂ fuel₂ ext cfg schema w)).Perm
        ((filesOf root₂).flatMap (messagesOfFile ω₂ fuel₂ ext cfg schema v)) := by
      refine (S.documents.flatMap_right _).trans ?_
      refine List.Perm.of_eq (List.flatMap_congr fun p hp => ?_)
      unfold messagesOfFile
      rw [hout p ((sameProject_found S).1 ((mem_filesOf _ _).1 hp))]
    refine MsgsSim.perm A.messages (MsgsSim.append (MsgsSim.refl _) ?_)
      (((h2.append_left (dirErrors root)).trans (by rw [S.directories])).trans B.messages.symm)
    exact MsgsSim.flatMap _ (fun p hp => (hfile p ((mem_filesOf root p).1 hp)).1)
  have hmt : ∀ {l l' : List String}, (∀ n, n ∈ l ↔ n ∈ l') → l = [] → l' = [] := by
    intro l l' h e
    subst e
    exact List.eq_nil_iff_forall_not_mem.2 (fun n hn => by simpa using (h n).2 hn)
  have hwe : ∀ text, (v.write (globalsPath cfg rootPath) text).1 = (w.write (globalsPath cfg rootPath) text).1 :=
    fun text => write_error v w (globalsPath cfg rootPath) text S.resolve S.writeErr
  have hG : (w.writeErr (globalsId w cfg rootPath) = none →
      SameText (globalsId w cfg rootPath) w₁ v₁ ∨ BothUntouched (globalsId w cfg rootPath) w w₁ v v₁ ∧
        ((¬ ∃ g, UsedGlobal ω₁ fuel₁ ext cfg schema w root g) ∨ (printExitInfo paint ms₁).code ≠ 0)) ∧
      (MsgsSim ms₁ ms₂ ∨ ((printExitInfo paint ms₁).code = (printExitInfo paint ms₂).code ∧
        ¬ ∀ n, GlobalName schema s₁.aggregate.2 n → ValidGlobal schema n)) := by
    rcases A.globals with ⟨e1, m1, d1⟩ | ⟨n1, r, c1, q1⟩
    · rcases B.globals with ⟨e2, m2, d2⟩ | ⟨n2, r', c2, q2⟩
      · rw [hgid] at d2
        rw [m1, m2]
        refine ⟨fun _ => .inr ⟨⟨d1, d2⟩, .inl ?_⟩, .inl hms⟩
        rintro ⟨g, h⟩
        rw [← usedGlobal_iff A, e1] at h
        cases h
      · exact absurd (hmt hu e1) n2
    · rcases B.globals with ⟨e2, m2, d2⟩ | ⟨n2, r', c2, q2⟩
      · exact absurd (hmt (fun n => (hu n).symm) e2) n1
      · have hiff := C16_globals_deterministic schema hk ω₁' ω₂' fuel₁ fuel₂ _ _ _ hu r r' c1 c2
        rcases q1 with ⟨e, rfl, m1, d1⟩ | ⟨text, rfl, d1, m1⟩
        · rcases q2 with ⟨e', rfl, m2, d2⟩ | ⟨text, rfl, d2, m2⟩
          · have lev : ∀ e : TsError, e.toMsg.level ≠ .compileWarning := by
              intro e; cases e <;> simp [TsError.toMsg, Msg.simpleProgramError]
            rw [hgid] at d2
            refine ⟨fun _ => .inr ⟨⟨d1, d2⟩, .inr ?_⟩, .inr ⟨?_, fun hv => ?_⟩⟩
            · rw [m1, code_of_error paint (m := e.toMsg) (by simp) (lev e)]
              decide
            · rw [m1, m2, code_of_error paint (m := e.toMsg) (by simp) (lev e),
                code_of_error paint (m := e'.toMsg) (by simp) (lev e')]
            · obtain ⟨t, ht⟩ := (C32_globals_ok_iff ω₁' fuel₁ cfg.toTsConfig schema s₁.aggregate.2 _ c1).2 hv
              simp at ht
          · have := (hiff text).2 rfl
            simp at this
        · have := (hiff text).1 rfl
          subst this
          rcases q2 with ⟨e', h, _⟩ | ⟨text', h, d2, m2⟩
          · simp at h
          · injection h with h
            subst h
            rw [m1, m2, hwe]
            refine ⟨fun hw => .inl ⟨text, ?_, ?_⟩, .inl (hms.append (MsgsSim.refl _))⟩
            · rw [d1]
              unfold World.write globalsId at *
              rw [hw]
              simp [World.put]
            · rw [hgid] at d2
              rw [d2]
              unfold World.write globalsId at *
              rw [S.writeErr, S.resolve, hw]
              simp [World.put]
  refine ⟨?_, ?_, hG.1, ?_⟩
  · rcases hG.2 with h | h
    · exact (h.report paint).2
    · exact h.1
  · intro p hp hw
    have hB := B.outputs p ((sameProject_found S).2 hp)
    have hA := A.outputs p hp
    rw [S.resolve] at hB
    obtain ⟨gs, m, e1⟩ := A.returned p hp
    obtain ⟨gs', m', e2⟩ := B.returned p ((sameProject_found S).2 hp)
    rw [hout p hp] at e2
    obtain ⟨y1, g1⟩ := returns_iff_compiles.2 ⟨_, _, compilesWith_of_done e1⟩
    obtain ⟨y2, g2⟩ := returns_iff_compiles.2 ⟨_, _, compilesWith_of_done e2⟩
    rw [poolCompile_world, g1] at hA
    rw [poolCompile_world, hgc p hp, g2] at hB
    unfold OutputWritable at hw
    rcases generate_sim ext cfg schema w p hcon (hh p hp) _ _ fuel₁ fuel₂ g1 g2 with
      ⟨_, _, c, rfl, rfl, _⟩ | ⟨_, _, rfl, rfl, _⟩
    · refine .inl ⟨c.contents, ?_, ?_⟩
      · rw [hA]; simp [World.write, hw, World.put]
      · rw [hB]; simp [World.write, S.resolve, S.writeErr, hw, World.put]
    · refine .inr ⟨⟨hA, hB⟩, ?_⟩
      obtain ⟨r, hc, hres⟩ := compilesWith_of_done e1
      have hc' := hc
      unfold compileFile at hc'
      rw [g1] at hc'
      simp only [Option.some.injEq, PanicOr.done.injEq] at hc'
      rcases hres with ⟨rep, hrep, _⟩ | ⟨he, _⟩
      · rw [← hc'] at hrep
        simp at hrep
      obtain ⟨x, hx, hl⟩ := failed_has_error hc he
      have hxm : x ∈ s₁.aggregate.1 := by
        rw [A.messages.mem_iff, List.mem_append, List.mem_flatMap]
        refine .inr ⟨p, (mem_filesOf root p).2 hp, ?_⟩
        unfold messagesOfFile
        rw [e1]
        exact hx
      have hxs : x ∈ ms₁ := by
        rcases A.globals with ⟨_, e, _⟩ | ⟨_, r, _, ⟨e, _, hm, _⟩ | ⟨text, _, _, hm⟩⟩
        · rw [e]; exact hxm
        · rw [hm]; exact List.mem_append_left _ hxm
        · rw [hm]; exact List.mem_append_left _ hxm
      rw [code_of_error paint hxs hl]
      decide
  · intro hv
    rcases hG.2 with h | h
    · exact (h.report paint).1
    · exact absurd hv h.2

/-- A document that compiles with nothing but warnings has a writable output. -/
theorem clean_writable {ω : Path → Hash} {fuel : Nat} {p : Path} {ms : List Msg} {gs : List String}
    (h : CompilesWith ω fuel ext cfg schema w p ms gs) (hw : ∀ m ∈ ms, m.level = .compileWarning) :
    OutputWritable w p := by
  obtain ⟨r, hr, ⟨rep, hrep, _⟩ | ⟨he, _⟩⟩ := h
  · unfold compileFile at hr
    cases g : generateFile (ω p) fuel ext cfg schema w p with
    | none => simp [g] at hr
    | some x =>
      cases x with
      | panic => simp [g] at hr
      | done y =>
        cases y with
        | error es =>
          simp only [g, Option.some.injEq, PanicOr.done.injEq] at hr
          subst hr
          simp at hrep
        | ok a =>
          simp only [g] at hr
          unfold World.write at hr
          unfold OutputWritable
          cases hw₁ : w.writeErr (w.resolve (outputPath p)) with
          | none => rfl
          | some e =>
            exfalso
            obtain ⟨e, left⟩ := e
            cases left <;>
            · simp only [hw₁, Option.some.injEq, PanicOr.done.injEq] at hr
              subst hr
              simp at hrep
  · obtain ⟨m, hm, hl⟩ := failed_has_error hr he
    exact absurd (hw m hm) hl

/-- **C138, clean checkouts.** If a run in a directory with whatever leftovers ends with status 0, then so does every
complete run over a fresh copy of the project, and it leaves the same text in every output and, if any document uses a
global, in the globals file. -/
theorem C138_clean_checkout (paint : Paint) (hcon : Consistent schema) (hk : InputFieldsOnce schema)
    (hr : NoOutputRead w cfg root) (hd : OutputsDistinct w root) (hg : GlobalsApart w cfg rootPath root)
    (hh : ∀ p, FoundIn root p → HashProof ext schema w cfg p) (S : SameProject cfg root root₂ w v)
    (R₁ : RunsTo ω₁ ω₁' fuel₁ ext cfg schema rootPath root threads₁ w s₁ ms₁ w₁)
    (R₂ : RunsTo ω₂ ω₂' fuel₂ ext cfg schema rootPath root₂ threads₂ v s₂ ms₂ v₁)
    (h0 : (printExitInfo paint ms₁).code = 0) :
    (printExitInfo paint ms₂).code = 0 ∧
    (∀ p, FoundIn root p → SameText (w.resolve (outputPath p)) w₁ v₁) ∧
    ((∃ g, UsedGlobal ω₁ fuel₁ ext cfg schema w root g) → SameText (globalsId w cfg rootPath) w₁ v₁) := by
  obtain ⟨k1, k2, k3, _⟩ := C138_leftovers_do_not_matter paint hcon hk hr hd hg hh S R₁ R₂
  have F := (C74_exit_status hr hd hg R₁ paint).1 h0
  refine ⟨by rw [← k1]; exact h0, fun p hp => ?_, fun hex => ?_⟩
  · obtain ⟨ms, gs, hc, hw⟩ := F.files p hp
    rcases k2 p hp (clean_writable hc hw) with h | ⟨_, h⟩
    · exact h
    · exact absurd h0 h
  · rcases k3 (F.written hex) with h | ⟨_, h | h⟩
    · exact h
    · exact absurd hex h
    · exact absurd h0 h

end

/-! ### An example -/

namespace Demo

/-- The directory of the demo project, with what earlier runs have left. -/
def usedTree : Entry := .dir ⟨true, ["r"]⟩ [.file ⟨true, ["r", "globals.ts"]⟩, .file fPath,
  .file ⟨true, ["r", "q.graphql.d.ts"]⟩, .file qPath, .file ⟨true, ["r", "gone.graphql.d.ts"]⟩]

/-- Its files. -/
def usedWorld : World where
  resolve := Path.display
  disk := fun id =>
    if id = "/r/q.graphql.d.ts" then .ok "old" else if id = "/r/globals.ts" then .ok "older"
    else if id = "/r/gone.graphql.d.ts" then .ok "oldest" else runWorld.disk id
  writeErr := fun _ => none

end Demo

/-- A run over them. -/
def usedRun : PoolSt World :=
  (PoolSt.init Demo.usedWorld 1 Demo.usedTree).run
    (poolCompile (fun _ => .reversed) 9 Demo.runExt Demo.cfg Demo.respSchema) 1 Demo.fileSched

/-- Its end. -/
def usedEnd : Option (List Msg × World) :=
  finishWork .inOrder 9 Demo.cfg Demo.respSchema usedRun.world ⟨true, ["r"]⟩ usedRun.aggregate

/-- The demo project in a fresh directory and in a used one: runs in both end with status 0 and leave the same outputs
and the same globals file. -/
theorem C138_demo : ∃ s₁ s₂ ms₁ ms₂ w₁ v₁,
    SameProject Demo.cfg Demo.fileTree Demo.usedTree Demo.runWorld Demo.usedWorld ∧
    RunsTo (fun _ => .inOrder) .reversed 9 Demo.runExt Demo.cfg Demo.respSchema ⟨true, ["r"]⟩ Demo.fileTree 1
      Demo.runWorld s₁ ms₁ w₁ ∧ (printExitInfo .plain ms₁).code = 0 ∧
    RunsTo (fun _ => .reversed) .inOrder 9 Demo.runExt Demo.cfg Demo.respSchema ⟨true, ["r"]⟩ Demo.usedTree 1
      Demo.usedWorld s₂ ms₂ v₁ ∧ (printExitInfo .plain ms₂).code = 0 ∧
    SameText "/r/q.graphql.d.ts" w₁ v₁ ∧ SameText "/r/f.graphql.d.ts" w₁ v₁ ∧ SameText "/r/globals.ts" w₁ v₁ := by
  obtain ⟨hno, hd, hga⟩ := C114_paths_apart C114_demo.1
  have S : SameProject Demo.cfg Demo.fileTree Demo.usedTree Demo.runWorld Demo.usedWorld := by
    refine ⟨?_, by decide +kernel, rfl, rfl, fun p q hp hq => ?_⟩
    · have e1 : filesOf Demo.fileTree = [Demo.qPath, Demo.fPath] := by decide +kernel
      have e2 : filesOf Demo.usedTree = [Demo.fPath, Demo.qPath] := by decide +kernel
      rw [e1, e2]
      exact List.Perm.swap _ _ _
    · rcases full_reads (demo_found hp) hq with rfl | rfl <;> rfl
  have a1 : (endsWith fullRun fullEnd).isSome = true := by decide +kernel
  have a2 : (leaves usedRun usedEnd "/r/globals.ts").isSome = true := by decide +kernel
  have a3 : (fullRun.aggregate.2).isEmpty = false := by decide +kernel
  obtain ⟨t₁, b1⟩ := Option.isSome_iff_exists.1 a1
  obtain ⟨ms₁, w₁, e₁, h1, h2, h5, d1⟩ := endsWith_some b1
  obtain ⟨t₂, b2⟩ := Option.isSome_iff_exists.1 a2
  obtain ⟨ms₂, v₁, e₂, h3, h4, _⟩ := leaves_some b2
  have R₁ : RunsTo (fun _ => .inOrder) .reversed 9 Demo.runExt Demo.cfg Demo.respSchema ⟨true, ["r"]⟩
      Demo.fileTree 1 Demo.runWorld fullRun ms₁ w₁ := ⟨⟨_, rfl⟩, h1, h2, e₁⟩
  have R₂ : RunsTo (fun _ => .reversed) .inOrder 9 Demo.runExt Demo.cfg Demo.respSchema ⟨true, ["r"]⟩
      Demo.usedTree 1 Demo.usedWorld usedRun ms₂ v₁ := ⟨⟨_, rfl⟩, h3, h4, e₂⟩
  obtain ⟨k1, k2, k3⟩ := C138_clean_checkout .plain (loaded_consistent resp_valid resp_loads)
    (ofJson_inputFieldsOnce resp_loads) hno hd hga (fun p hp => run_hashProof hp) S R₁ R₂ h5
  have hf : FoundIn Demo.fileTree Demo.fPath := (mem_filesOf _ _).1 (by decide +kernel)
  have hq : FoundIn Demo.fileTree Demo.qPath := (mem_filesOf _ _).1 (by decide +kernel)
  have of : Demo.runWorld.resolve (outputPath Demo.fPath) = "/r/f.graphql.d.ts" := by decide +kernel
  have oq : Demo.runWorld.resolve (outputPath Demo.qPath) = "/r/q.graphql.d.ts" := by decide +kernel
  have og : globalsId Demo.runWorld Demo.cfg ⟨true, ["r"]⟩ = "/r/globals.ts" := by decide +kernel
  rw [og] at k3
  have hg : ∃ g, UsedGlobal (fun _ => .inOrder) 9 Demo.runExt Demo.cfg Demo.respSchema Demo.runWorld Demo.fileTree g := by
    obtain ⟨g, hg⟩ := List.exists_mem_of_ne_nil fullRun.aggregate.2 (fun e => by rw [e] at a3; cases a3)
    exact ⟨g, (usedGlobal_iff (after_run hno hd hga R₁) g).1 hg⟩
  exact ⟨_, _, ms₁, ms₂, w₁, v₁, S, R₁, h5, R₂, k1, oq ▸ k2 _ hq, of ▸ k2 _ hf, k3 hg⟩

end Qlc
