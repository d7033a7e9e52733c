import Verif.Spec.UpToDate
import Verif.Props.History
/-
Property C140: running the program tells whether generated files that were checked in are up to date.
-/
set_option autoImplicit false

namespace Qlc
open Spec

section
variable {ext : Ext} {cfg : CompileConfig} {schema : Schema} {w v w₁ v₁ : World} {root root₂ : Entry} {rootPath : Path}
  {ω₁ ω₂ : Path → Hash} {ω₁' ω₂' : Hash} {fuel₁ fuel₂ threads₁ threads₂ : Nat} {s₁ s₂ : PoolSt World}
  {ms₁ ms₂ : List Msg}

/-- Runs over the same project use the same globals. -/
theorem sameProject_used (hcon : Consistent schema) (hr : NoOutputRead w cfg root) (hd : OutputsDistinct w root)
    (hg : GlobalsApart w cfg rootPath root) (hh : ∀ p, FoundIn root p → HashProof ext schema w cfg p)
    (S : SameProject cfg root root₂ w v)
    (R₁ : RunsTo ω₁ ω₁' fuel₁ ext cfg schema rootPath root threads₁ w s₁ ms₁ w₁)
    (R₂ : RunsTo ω₂ ω₂' fuel₂ ext cfg schema rootPath root₂ threads₂ v s₂ ms₂ v₁) (n : String) :
    n ∈ s₁.aggregate.2 ↔ n ∈ s₂.aggregate.2 := by
  obtain ⟨hr₂, hd₂, hg₂⟩ := sameProject_apart S hr hd hg
  have A := after_run hr hd hg R₁
  have B := after_run hr₂ hd₂ hg₂ R₂
  have hout : ∀ p, FoundIn root p → (poolCompile ω₂ fuel₂ ext cfg schema v p).1 =
      (poolCompile ω₂ fuel₂ ext cfg schema w p).1 := fun p hp =>
    poolCompile_outcome ω₂ fuel₂ ext cfg schema p w v
      (generateFile_congr cfg w v (ω₂ p) fuel₂ ext schema p (fun q hq => S.sources p q hp hq)) S.resolve S.writeErr
  have hfile := fun p (hp : FoundIn root p) => file_sim hcon (hh p hp) (A.returned p hp)
    (by rw [← hout p hp]; exact B.returned p ((sameProject_found S).2 hp))
  rw [A.used, B.used]
  refine exists_congr (fun p => ?_)
  rw [sameProject_found S]
  refine and_congr_right (fun hp => ?_)
  rw [(hfile p hp).2.1]
  unfold globalsOfFile
  rw [hout p hp]

/-- **C140.** Generated files are checked in with the documents (`v`).  A complete run over them that ends with status 0
changes nothing on the disk exactly if the files checked in are those that a run in a clean checkout of the same
project (`w`) generates, whatever the hash orders, numbers of threads and schedules of the two runs.  So "run the
program and look whether anything has changed" is a sound and complete check. -/
theorem C140_check (paint : Paint) (hcon : Consistent schema) (hk : InputFieldsOnce schema)
    (hr : NoOutputRead w cfg root) (hd : OutputsDistinct w root) (hg : GlobalsApart w cfg rootPath root)
    (hh : ∀ p, FoundIn root p → HashProof ext schema w cfg p) (S : SameProject cfg root root₂ w v)
    (R₁ : RunsTo ω₁ ω₁' fuel₁ ext cfg schema rootPath root threads₁ w s₁ ms₁ w₁)
    (R₂ : RunsTo ω₂ ω₂' fuel₂ ext cfg schema rootPath root₂ threads₂ v s₂ ms₂ v₁)
    (h0 : (printExitInfo paint ms₂).code = 0) :
    NothingChanged v v₁ ↔
      UpToDate cfg rootPath root₂ (∃ g, UsedGlobal ω₂ fuel₂ ext cfg schema v root₂ g) v w₁ := by
  obtain ⟨hr₂, hd₂, hg₂⟩ := sameProject_apart S hr hd hg
  have A := after_run hr hd hg R₁
  have B := after_run hr₂ hd₂ hg₂ R₂
  have h1 : (printExitInfo paint ms₁).code = 0 := by
    rw [(C138_leftovers_do_not_matter paint hcon hk hr hd hg hh S R₁ R₂).1]; exact h0
  obtain ⟨_, k2, k3⟩ := C138_clean_checkout paint hcon hk hr hd hg hh S R₁ R₂ h1
  have hgid : globalsId v cfg rootPath = globalsId w cfg rootPath := by unfold globalsId; rw [S.resolve]
  have hsame : ∀ p, FoundIn root₂ p →
      v₁.disk (v.resolve (outputPath p)) = w₁.disk (v.resolve (outputPath p)) := by
    intro p hp
    obtain ⟨t, e1, e2⟩ := k2 p ((sameProject_found S).1 hp)
    rw [S.resolve, e1, e2]
  have hgl : (∃ g, UsedGlobal ω₂ fuel₂ ext cfg schema v root₂ g) →
      v₁.disk (globalsId v cfg rootPath) = w₁.disk (globalsId v cfg rootPath) := by
    rintro ⟨g, hu⟩
    obtain ⟨t, e1, e2⟩ := k3 ⟨g, (usedGlobal_iff A g).1 ((sameProject_used hcon hr hd hg hh S R₁ R₂ g).2
      ((usedGlobal_iff B g).2 hu))⟩
    rw [hgid, e1, e2]
  constructor
  · intro h
    exact ⟨fun p hp => by rw [← hsame p hp, h], fun hu => by rw [← hgl hu, h]⟩
  · intro h id
    by_cases ho : IsOutput v root₂ id
    · obtain ⟨p, hp, rfl⟩ := ho
      rw [hsame p hp, h.outputs p hp]
    · by_cases hi : id = globalsId v cfg rootPath
      · subst hi
        by_cases hu : ∃ g, UsedGlobal ω₂ fuel₂ ext cfg schema v root₂ g
        · rw [hgl hu, h.globals hu]
        · rcases B.globals with ⟨_, _, d⟩ | ⟨hne, _⟩
          · exact d
          · obtain ⟨g, hgm⟩ := List.exists_mem_of_ne_nil _ hne
            exact absurd ⟨g, (usedGlobal_iff B g).1 hgm⟩ hu
      · exact B.others id ho hi

/-- **C140.** What the check does not see.  A run deletes and changes nothing but outputs of documents that are there and
the globals file, so the output of a document that has been removed or renamed stays as it is, and the globals file
stays as it is when no document uses a global any more. -/
theorem C140_blind_spots (hr : NoOutputRead v cfg root₂) (hd : OutputsDistinct v root₂)
    (hg : GlobalsApart v cfg rootPath root₂)
    (R : RunsTo ω₂ ω₂' fuel₂ ext cfg schema rootPath root₂ threads₂ v s₂ ms₂ v₁) :
    (∀ p, v.resolve (outputPath p) ≠ globalsId v cfg rootPath →
      (∀ q, FoundIn root₂ q → v.resolve (outputPath p) ≠ v.resolve (outputPath q)) →
      v₁.disk (v.resolve (outputPath p)) = v.disk (v.resolve (outputPath p))) ∧
    ((¬ ∃ g, UsedGlobal ω₂ fuel₂ ext cfg schema v root₂ g) →
      v₁.disk (globalsId v cfg rootPath) = v.disk (globalsId v cfg rootPath)) := by
  have B := after_run hr hd hg R
  constructor
  · intro p hne hq
    refine B.others _ ?_ hne
    rintro ⟨q, hf, he⟩
    exact hq q hf he
  · intro hu
    rcases B.globals with ⟨_, _, d⟩ | ⟨hne, _⟩
    · exact d
    · obtain ⟨g, hgm⟩ := List.exists_mem_of_ne_nil _ hne
      exact absurd ⟨g, (usedGlobal_iff B g).1 hgm⟩ hu

end

/-! ### An example -/

/-- The directory that the clean run has left, as it is checked in. -/
def checkedIn : World := match fullEnd with
  | some (_, w) => w
  | none => Demo.runWorld

/-- A run over it. -/
def checkRun : PoolSt World :=
  (PoolSt.init checkedIn 1 Demo.usedTree).run
    (poolCompile (fun _ => .reversed) 9 Demo.runExt Demo.cfg Demo.respSchema) 1 Demo.fileSched

/-- Its end. -/
def checkEnd : Option (List Msg × World) :=
  finishWork .inOrder 9 Demo.cfg Demo.respSchema checkRun.world ⟨true, ["r"]⟩ checkRun.aggregate

/-- Two checkouts of the demo project: in one the files are those generated, and a run changes nothing; in the other
they are old, and a run changes the output of the query, but not the output of a document that is gone. -/
theorem C140_demo : ∃ s₁ s₂ s₃ ms₁ ms₂ ms₃ w₁ v₁ u₁,
    SameProject Demo.cfg Demo.fileTree Demo.usedTree Demo.runWorld Demo.usedWorld ∧
    SameProject Demo.cfg Demo.fileTree Demo.usedTree Demo.runWorld checkedIn ∧
    RunsTo (fun _ => .inOrder) .reversed 9 Demo.runExt Demo.cfg Demo.respSchema ⟨true, ["r"]⟩ Demo.fileTree 1
      Demo.runWorld s₁ ms₁ w₁ ∧
    RunsTo (fun _ => .reversed) .inOrder 9 Demo.runExt Demo.cfg Demo.respSchema ⟨true, ["r"]⟩ Demo.usedTree 1
      Demo.usedWorld s₂ ms₂ v₁ ∧ (printExitInfo .plain ms₂).code = 0 ∧
    ¬ NothingChanged Demo.usedWorld v₁ ∧
    v₁.disk "/r/gone.graphql.d.ts" = .ok "oldest" ∧
    RunsTo (fun _ => .reversed) .inOrder 9 Demo.runExt Demo.cfg Demo.respSchema ⟨true, ["r"]⟩ Demo.usedTree 1
      checkedIn s₃ ms₃ u₁ ∧ (printExitInfo .plain ms₃).code = 0 ∧ NothingChanged checkedIn u₁ := by
  obtain ⟨hno, hd, hga⟩ := C114_paths_apart C114_demo.1
  obtain ⟨_, _, _, _, _, _, S, _⟩ := C138_demo
  have a1 : (endsWith fullRun fullEnd).isSome = true := by decide +kernel
  have a2 : (endsWith usedRun usedEnd).isSome = true := by decide +kernel
  have a3 : (endsWith checkRun checkEnd).isSome = true := by decide +kernel
  have a4 : leaves usedRun usedEnd "/r/q.graphql.d.ts" ≠ some "old" := by decide +kernel
  have a5 : leaves usedRun usedEnd "/r/gone.graphql.d.ts" = some "oldest" := by decide +kernel
  obtain ⟨t₁, b1⟩ := Option.isSome_iff_exists.1 a1
  obtain ⟨ms₁, w₁, e₁, f1, p1, c1, _⟩ := endsWith_some b1
  obtain ⟨t₂, b2⟩ := Option.isSome_iff_exists.1 a2
  obtain ⟨ms₂, v₁, e₂, f2, p2, c2, _⟩ := endsWith_some b2
  obtain ⟨t₃, b3⟩ := Option.isSome_iff_exists.1 a3
  obtain ⟨ms₃, u₁, e₃, f3, p3, c3, _⟩ := endsWith_some b3
  have R₁ : RunsTo (fun _ => .inOrder) .reversed 9 Demo.runExt Demo.cfg Demo.respSchema ⟨true, ["r"]⟩
      Demo.fileTree 1 Demo.runWorld fullRun ms₁ w₁ := ⟨⟨_, rfl⟩, f1, p1, e₁⟩
  have R₂ : RunsTo (fun _ => .reversed) .inOrder 9 Demo.runExt Demo.cfg Demo.respSchema ⟨true, ["r"]⟩
      Demo.usedTree 1 Demo.usedWorld usedRun ms₂ v₁ := ⟨⟨_, rfl⟩, f2, p2, e₂⟩
  have R₃ : RunsTo (fun _ => .reversed) .inOrder 9 Demo.runExt Demo.cfg Demo.respSchema ⟨true, ["r"]⟩
      Demo.usedTree 1 checkedIn checkRun ms₃ u₁ := ⟨⟨_, rfl⟩, f3, p3, e₃⟩
  have A := after_run hno hd hga R₁
  have hc : checkedIn = w₁ := by unfold checkedIn; rw [e₁]
  have S' : SameProject Demo.cfg Demo.fileTree Demo.usedTree Demo.runWorld checkedIn := by
    refine ⟨S.documents, S.directories, by rw [hc, A.resolve], by rw [hc, A.writeErr], fun p q hp hq => ?_⟩
    rw [hc]
    unfold World.read
    rw [A.resolve]
    exact A.others _ (hno p q hp hq) (hga.2 p q hp hq)
  refine ⟨_, _, _, ms₁, ms₂, ms₃, w₁, v₁, u₁, S, S', R₁, R₂, c2, ?_, ?_, R₃, c3, ?_⟩
  · intro h
    have hq := h "/r/q.graphql.d.ts"
    apply a4
    unfold leaves
    rw [e₂]
    simp only [f2, p2, hq]
    decide
  · unfold leaves at a5
    rw [e₂] at a5
    simp only [f2, p2] at a5
    cases hx : v₁.disk "/r/gone.graphql.d.ts" with
    | error e => rw [hx] at a5; simp [Except.toOption] at a5
    | ok t => rw [hx] at a5; simp [Except.toOption] at a5; rw [a5]
  · refine (C140_check .plain (loaded_consistent resp_valid resp_loads) (ofJson_inputFieldsOnce resp_loads) hno hd hga
      (fun p hp => run_hashProof hp) S' R₁ R₃ c3).2 ⟨fun _ _ => by rw [hc], fun _ => by rw [hc]⟩

end Qlc
