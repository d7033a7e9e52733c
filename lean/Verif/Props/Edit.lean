import Verif.Spec.Edit
import Verif.Props.Report
import Verif.Props.Regenerate
/-
C99: running again after some files were edited.
-/
set_option autoImplicit false

namespace Qlc
open Spec

section
variable {ext : Ext} {cfg : CompileConfig} {schema : Schema} {w v : World} {root root' : Entry} {rootPath : Path}

/-- **C99.** Run the program to the end, edit some files, perhaps add and remove others, and run it again, with
other hash orders and another schedule: a file has other contents afterwards only if it was edited, or is the
globals file, or is the output of a document that is new or reads an edited file. -/
theorem C99_edits_are_local {ω₁ ω₂ : Path → Hash} {ω₁' ω₂' : Hash} {fuel₁ fuel₂ threads₁ threads₂ : Nat}
    {s₁ s₂ : PoolSt World} {ms₁ ms₂ : List Msg} {w₁ v' : World} (E : String → Prop) (hcon : Consistent schema)
    (hr : NoOutputRead w cfg root) (hd : OutputsDistinct w root) (hg : GlobalsApart w cfg rootPath root)
    (hh : ∀ p, FoundIn root p → HashProof ext schema w cfg p)
    (R₁ : RunsTo ω₁ ω₁' fuel₁ ext cfg schema rootPath root threads₁ w s₁ ms₁ w₁)
    (hE : EditedAt E w₁ v)
    (hr' : NoOutputRead v cfg root') (hd' : OutputsDistinct v root') (hg' : GlobalsApart v cfg rootPath root')
    (R₂ : RunsTo ω₂ ω₂' fuel₂ ext cfg schema rootPath root' threads₂ v s₂ ms₂ v') (id : String)
    (hne : v'.disk id ≠ w₁.disk id) :
    E id ∨ id = globalsId w cfg rootPath ∨
      ∃ p, FoundIn root' p ∧ id = w.resolve (outputPath p) ∧ (¬ FoundIn root p ∨ Affected E w cfg p) := by
  have A := after_run hr hd hg R₁
  have B := after_run hr' hd' hg' R₂
  obtain ⟨hE1, hE2, hE3⟩ := hE
  have hres : v.resolve = w.resolve := by rw [hE1, A.resolve]
  have hwr : v.writeErr = w.writeErr := by rw [hE2, A.writeErr]
  have hgid : globalsId v cfg rootPath = globalsId w cfg rootPath := by unfold globalsId; rw [hres]
  by_contra hno
  push_neg at hno
  obtain ⟨n1, n2, n3⟩ := hno
  apply hne
  by_cases ho : IsOutput v root' id
  · obtain ⟨p, hp', rfl⟩ := ho
    rw [hres] at n1 n2 n3 ⊢
    obtain ⟨hp, haff⟩ := n3 p hp' rfl
    have hread : ∀ q, Spec.Reads w cfg p q → v.read q = w.read q := by
      intro q hq
      unfold World.read
      rw [hres, hE3 _ (fun he => haff ⟨q, hq, he⟩)]
      exact A.others _ (hr p q hp hq) (hg.2 p q hp hq)
    have hgc := generateFile_congr cfg w v (ω₂ p) fuel₂ ext schema p hread
    obtain ⟨gs, m, e1⟩ := A.returned p hp
    obtain ⟨gs', m', e2⟩ := B.returned p hp'
    have hoA := A.outputs p hp
    have hoB := B.outputs p hp'
    rw [hres] at hoB
    rw [poolCompile_world] at hoA hoB
    rw [hgc] at hoB
    rw [poolCompile_outcome ω₂ fuel₂ ext cfg schema p w v hgc hres hwr] at e2
    unfold poolCompile compileFile at e1 e2
    cases g1 : generateFile (ω₁ p) fuel₁ ext cfg schema w p with
    | none => rw [g1] at e1; simp at e1
    | some x1 =>
      cases x1 with
      | panic => rw [g1] at e1; simp at e1
      | done y1 =>
        cases g2 : generateFile (ω₂ p) fuel₂ ext cfg schema w p with
        | none => rw [g2] at e2; simp at e2
        | some x2 =>
          cases x2 with
          | panic => rw [g2] at e2; simp at e2
          | done y2 =>
            rw [g1] at hoA
            rw [g2] at hoB
            rcases generate_sim ext cfg schema w p hcon (hh p hp) _ _ fuel₁ fuel₂ g1 g2 with
              ⟨ms, ms', c, rfl, rfl, _⟩ | ⟨ms, ms', rfl, rfl, _⟩
            · simp only at hoA hoB
              have hold := hE3 _ n1
              rw [hoA, hoB]
              unfold World.write at hoA ⊢
              rw [hwr, hres]
              cases hwe : w.writeErr (w.resolve (outputPath p)) with
              | none => simp [World.put]
              | some e =>
                obtain ⟨e, l⟩ := e
                cases l with
                | none => simp only [hwe] at hoA ⊢; rw [hold, hoA]
                | some l => simp [World.put]
            · simp only at hoA hoB
              rw [hoB, hE3 _ n1]
  · rw [B.others id ho (by rw [hgid]; exact n2), hE3 id n1]

/-- **C99, what is left behind.** The program removes nothing: the output of a document that is gone stays. -/
theorem C99_outputs_of_removed_documents_stay {ω : Path → Hash} {ω' : Hash} {fuel threads : Nat} {s : PoolSt World}
    {ms : List Msg} {v' : World} (hr : NoOutputRead v cfg root') (hd : OutputsDistinct v root')
    (hg : GlobalsApart v cfg rootPath root')
    (R : RunsTo ω ω' fuel ext cfg schema rootPath root' threads v s ms v') (p : Path)
    (hp : ∀ p', FoundIn root' p' → v.resolve (outputPath p') ≠ v.resolve (outputPath p))
    (hgl : v.resolve (outputPath p) ≠ globalsId v cfg rootPath) :
    v'.disk (v.resolve (outputPath p)) = v.disk (v.resolve (outputPath p)) := by
  refine (after_run hr hd hg R).others _ ?_ hgl
  rintro ⟨p', hp', h⟩
  exact hp p' hp' h.symm

end

/-! ### An example -/

/-- The files after the first run, with the query replaced by a fragment. -/
def Demo.editWorld : World :=
  match fullEnd with
  | some (_, w) => w.put "/r/q.graphql" "fragment F"
  | none => Demo.runWorld

/-- The pool at the end of the second run. -/
def editRun : PoolSt World :=
  (PoolSt.init Demo.editWorld 1 Demo.fileTree).run
    (poolCompile (fun _ => .reversed) 9 Demo.runExt Demo.cfg Demo.respSchema) 1 Demo.fileSched

/-- The end of the second run. -/
def editEnd : Option (List Msg × World) :=
  finishWork .inOrder 9 Demo.cfg Demo.respSchema editRun.world ⟨true, ["r"]⟩ editRun.aggregate

/-- A run that ended without work left, and what it left in the outputs. -/
def leaves (s : PoolSt World) (e : Option (List Msg × World)) (id : String) : Option String :=
  match e with
  | some (_, w) => if s.finished && (pending s).isEmpty then (w.disk id).toOption else none
  | none => none

theorem leaves_some {s : PoolSt World} {e : Option (List Msg × World)} {id t : String} (h : leaves s e id = some t) :
    ∃ ms w, e = some (ms, w) ∧ s.finished = true ∧ pending s = [] ∧ w.disk id = .ok t := by
  unfold leaves at h
  split at h
  · rename_i ms w
    split at h
    · rename_i hc
      simp only [Bool.and_eq_true] at hc
      refine ⟨ms, w, rfl, hc.1, List.isEmpty_iff.1 hc.2, ?_⟩
      cases hd : w.disk id with
      | error _ => rw [hd] at h; simp [Except.toOption] at h
      | ok t' => rw [hd] at h; simp only [Except.toOption, Option.some.injEq] at h; rw [h]
    · simp at h
  · simp at h

/-- The query is edited: the second run changes the output of the query and not that of the fragment. -/
theorem C99_demo : ∃ s₁ s₂ ms₁ ms₂ w₁ v',
    RunsTo (fun _ => .inOrder) .reversed 9 Demo.runExt Demo.cfg Demo.respSchema ⟨true, ["r"]⟩ Demo.fileTree 1
      Demo.runWorld s₁ ms₁ w₁ ∧
    EditedAt (fun id => id = "/r/q.graphql") w₁ Demo.editWorld ∧
    RunsTo (fun _ => .reversed) .inOrder 9 Demo.runExt Demo.cfg Demo.respSchema ⟨true, ["r"]⟩ Demo.fileTree 1
      Demo.editWorld s₂ ms₂ v' ∧
    v'.disk "/r/q.graphql.d.ts" ≠ w₁.disk "/r/q.graphql.d.ts" ∧
    v'.disk "/r/f.graphql.d.ts" = w₁.disk "/r/f.graphql.d.ts" := by
  obtain ⟨_, _, _, _, _, hno, hd, hga, _⟩ := C89_demo
  have a1 : (leaves fullRun fullEnd "/r/q.graphql.d.ts").isSome = true := by decide +kernel
  have a2 : (leaves editRun editEnd "/r/q.graphql.d.ts").isSome = true := by decide +kernel
  have a3 : leaves fullRun fullEnd "/r/q.graphql.d.ts" ≠ leaves editRun editEnd "/r/q.graphql.d.ts" := by
    decide +kernel
  have a4 : leaves fullRun fullEnd "/r/f.graphql" = some "fragment F" := by decide +kernel
  obtain ⟨t₁, b1⟩ := Option.isSome_iff_exists.1 a1
  obtain ⟨t₂, b2⟩ := Option.isSome_iff_exists.1 a2
  rw [b1, b2] at a3
  obtain ⟨ms₁, w₁, e₁, h1, h2, d1⟩ := leaves_some b1
  obtain ⟨ms₂, v', e₂, h3, h4, d2⟩ := leaves_some b2
  obtain ⟨_, _, e₃, _, _, d3⟩ := leaves_some a4
  rw [e₁] at e₃
  have e₃ := (Prod.mk.inj (Option.some.inj e₃)).2
  subst e₃
  have R₁ : RunsTo (fun _ => .inOrder) .reversed 9 Demo.runExt Demo.cfg Demo.respSchema ⟨true, ["r"]⟩
      Demo.fileTree 1 Demo.runWorld fullRun ms₁ w₁ := ⟨⟨_, rfl⟩, h1, h2, e₁⟩
  have R₂ : RunsTo (fun _ => .reversed) .inOrder 9 Demo.runExt Demo.cfg Demo.respSchema ⟨true, ["r"]⟩
      Demo.fileTree 1 Demo.editWorld editRun ms₂ v' := ⟨⟨_, rfl⟩, h3, h4, e₂⟩
  have A := after_run hno hd hga R₁
  have hw : Demo.editWorld = w₁.put "/r/q.graphql" "fragment F" := by unfold Demo.editWorld; rw [e₁]
  have hrun : Demo.runWorld.resolve = Path.display := rfl
  have hres : Demo.editWorld.resolve = Path.display := by rw [hw]; exact A.resolve
  have hboth : Demo.editWorld.resolve = Demo.runWorld.resolve := hres.trans hrun.symm
  have hE : EditedAt (fun id => id = "/r/q.graphql") w₁ Demo.editWorld := by
    rw [hw]
    exact ⟨rfl, rfl, fun id h => by simp [World.put, h]⟩
  have hread : ∀ p, FoundIn Demo.fileTree p → Demo.editWorld.read p = .ok "fragment F" := by
    intro p hp
    unfold World.read
    rw [hres]
    rcases demo_found hp with rfl | rfl
    · have : Demo.qPath.display = "/r/q.graphql" := by decide +kernel
      rw [this, hw]
      simp [World.put]
    · have : Demo.fPath.display = "/r/f.graphql" := by decide +kernel
      rw [this, hw]
      simp only [World.put]
      rw [if_neg (by decide)]
      exact d3
  clear hw a1 a2 a4
  generalize Demo.editWorld = v at *
  have hreads : ∀ p q, FoundIn Demo.fileTree p → Spec.Reads v Demo.cfg p q → q = p := by
    intro p q hp hq
    induction hq with
    | self => rfl
    | imported _ hr hi ih =>
      subst ih
      rw [hread _ hp] at hr
      have hr := Except.ok.inj hr
      subst hr
      exact absurd hi demo_imports_f
  have hout : ∀ id, IsOutput v Demo.fileTree id → IsOutput Demo.runWorld Demo.fileTree id := by
    rintro id ⟨p, hp, rfl⟩
    exact ⟨p, hp, congrFun (hres.trans hrun.symm) _⟩
  have hno' : NoOutputRead v Demo.cfg Demo.fileTree := by
    intro p q hp hq ho
    obtain rfl := hreads p q hp hq
    have ho := hout _ ho
    rw [hboth] at ho
    exact hno q q hp .self ho
  have hd' : OutputsDistinct v Demo.fileTree := by
    intro p q hp hq h
    rw [hboth] at h
    exact hd p q hp hq h
  have hgid : globalsId v Demo.cfg ⟨true, ["r"]⟩ = globalsId Demo.runWorld Demo.cfg ⟨true, ["r"]⟩ := by
    exact congrFun (hres.trans hrun.symm) _
  have hga' : GlobalsApart v Demo.cfg ⟨true, ["r"]⟩ Demo.fileTree := by
    rw [GlobalsApart, hgid]
    refine ⟨fun ho => hga.1 (hout _ ho), fun p q hp hq => ?_⟩
    obtain rfl := hreads p q hp hq
    rw [hboth]
    exact hga.2 q q hp .self
  refine ⟨_, _, ms₁, ms₂, w₁, v', R₁, hE, R₂, ?_, ?_⟩
  · rw [d1, d2]
    intro e
    exact a3 (by rw [Except.ok.inj e])
  · by_contra hne
    rcases C99_edits_are_local _ (loaded_consistent resp_valid resp_loads) hno hd hga
      (fun p hp => run_hashProof hp) R₁ hE hno' hd' hga' R₂ _ hne with h | h | ⟨p, hp, h, hx⟩
    · exact absurd h (by decide)
    · exact absurd h (by decide +kernel)
    · have hf : p = Demo.fPath := by
        rcases demo_found hp with rfl | rfl
        · exact absurd h (by decide +kernel)
        · rfl
      subst hf
      rcases hx with hx | ⟨q, hq, he⟩
      · exact hx hp
      · have rf : Demo.runWorld.read Demo.fPath = .ok "fragment F" := rfl
        have : q = Demo.fPath := by
          clear he
          induction hq with
          | self => rfl
          | imported _ hr hi ih =>
            subst ih
            rw [rf] at hr
            have hr := Except.ok.inj hr
            subst hr
            exact absurd hi demo_imports_f
        subst this
        revert he
        decide +kernel

end Qlc
