import Verif.Lemmas.Report
import Verif.Props.Crash
import Verif.Props.Diagnostics
/-
C91: what a run reports depends neither on hash orders nor on the schedule, up to order.
-/
set_option autoImplicit false

namespace Qlc
open Spec

theorem nodup_foldl_insert (l : List FragmentDef) : ∀ m : AMap String FragmentDef, (AMap.keys m).Nodup →
    (AMap.keys (l.foldl (fun m f => AMap.insert m f.name f) m)).Nodup := by
  induction l with
  | nil => intro m h; exact h
  | cons f l ih => intro m h; exact ih _ (AMap.nodup_keys_insert m _ _ h)

section OneFile
variable (ext : Ext) (cfg : CompileConfig) (schema : Schema) (w : World) (p : Path)

/-- The fragments in scope have different keys. -/
theorem foreign_nodup (ω : Hash) (imports : List ImportedFile) (msgs : List Msg) :
    (AMap.keys (parseForeignFragments ω ext p imports msgs).1).Nodup := by
  unfold parseForeignFragments
  rw [foreignLoop_frags]
  exact nodup_foldl_insert _ _ (by simp [AMap.keys])

theorem foreign_messages_perm (ω ω' : Hash) (imports : List ImportedFile) (msgs : List Msg) :
    (parseForeignFragments ω ext p imports msgs).2.Perm (parseForeignFragments ω' ext p imports msgs).2 := by
  unfold parseForeignFragments
  rw [foreignLoop_msgs, foreignLoop_msgs]
  exact List.Perm.append_left _
    (((ω.isPerm _ imports).trans (ω'.isPerm _ imports).symm).filterMap _)

theorem keys_perm {frags frags' : Frags} (h : (AMap.keys frags).Nodup) (h' : (AMap.keys frags').Nodup)
    (hget : ∀ n, AMap.get? frags n = AMap.get? frags' n) : (AMap.keys frags).Perm (AMap.keys frags') := by
  rw [List.perm_ext_iff_of_nodup h h']
  intro n
  rw [← AMap.get?_isSome, ← AMap.get?_isSome, hget]

/-- What one file yields, up to the order of messages and listed names, under two hash orders. -/
theorem generate_sim (hcon : Consistent schema) (hh : HashProof ext schema w cfg p) (ω ω' : Hash)
    (fuel fuel' : Nat) {y y' : Except (List Msg) (List Msg × Compile)}
    (h : generateFile ω fuel ext cfg schema w p = some (.done y))
    (h' : generateFile ω' fuel' ext cfg schema w p = some (.done y')) :
    (∃ ms ms' c, y = .ok (ms, c) ∧ y' = .ok (ms', c) ∧ MsgsSim ms ms') ∨
    (∃ ms ms', y = .error ms ∧ y' = .error ms' ∧ MsgsSim ms ms') := by
  unfold generateFile readGraphqlFile at h h'
  cases hr : w.read p with
  | error e =>
    simp only [hr, Option.some.injEq, PanicOr.done.injEq] at h h'
    exact .inr ⟨_, _, h.symm, h'.symm, MsgsSim.refl _⟩
  | ok contents =>
    simp only [hr] at h h'
    cases hp : parseGraphqlFile ext contents p with
    | error e =>
      simp only [hp, Option.some.injEq, PanicOr.done.injEq] at h h'
      exact .inr ⟨_, _, h.symm, h'.symm, MsgsSim.refl _⟩
    | ok d =>
      simp only [hp] at h h'
      obtain ⟨hu, hfr, hv⟩ := hh contents d hr ((parse_ok _ _ p _).1 hp)
      cases hs : addImported w cfg fuel p contents ⟨[], []⟩ with
      | none => simp [hs] at h
      | some x =>
        cases x with
        | panic => simp [hs] at h
        | done st =>
          cases hs' : addImported w cfg fuel' p contents ⟨[], []⟩ with
          | none => simp [hs'] at h'
          | some x =>
            have := C36_outcome_unique w cfg fuel fuel' p contents _ _ _ hs hs'
            subst this
            have hget := inScope_get ext cfg w p (inScope_foreign ext cfg w p ω hs hu)
              (inScope_foreign ext cfg w p ω' hs hu)
            have hkeys := keys_perm (foreign_nodup ext p ω st.imports st.messages)
              (foreign_nodup ext p ω' st.imports st.messages) hget
            have hms : MsgsSim _ _ := MsgsSim.of_perm
              (foreign_messages_perm ext p ω ω' st.imports st.messages)
            simp only [hs] at h
            simp only [hs'] at h'
            cases hc : Operation.compile ω fuel ⟨schema, cfg.showDeprecationWarnings,
                (parseForeignFragments ω ext p st.imports st.messages).1⟩ d with
            | none => simp [hc] at h
            | some a =>
              obtain ⟨r, ws⟩ := a
              cases hc' : Operation.compile ω' fuel' ⟨schema, cfg.showDeprecationWarnings,
                  (parseForeignFragments ω' ext p st.imports st.messages).1⟩ d with
              | none => simp [hc'] at h'
              | some a' =>
                obtain ⟨r', ws'⟩ := a'
                obtain ⟨se, sw⟩ := diagnostics_sim ext.dist contents p hget hkeys ω ω' fuel fuel' _ hcon d hc hc'
                simp only [hc] at h
                simp only [hc'] at h'
                have s1 := inScope_foreign ext cfg w p ω hs hu
                have s2 := inScope_foreign ext cfg w p ω' hs hu
                cases r with
                | error es =>
                  cases r' with
                  | error es' =>
                    simp only [Option.some.injEq, PanicOr.done.injEq] at h h'
                    exact .inr ⟨_, _, h.symm, h'.symm, hms.append
                      ((MsgsSim.of_forall (se es es' rfl rfl)).append (MsgsSim.of_forall sw))⟩
                  | ok op' =>
                    obtain ⟨P, hP, hcomp, hval, hvars⟩ :=
                      (C07_compiles_iff_valid ω' fuel' _ hcon d _ ws' hc').1 ⟨op', rfl⟩
                    obtain ⟨op, e⟩ := (C07_compiles_iff_valid ω fuel _ hcon d _ ws hc).2
                      ⟨P, hP, hcomp, (valid_congr hget _ _).2 hval, hvars⟩
                    cases e
                | ok op =>
                  obtain ⟨rfl, hgen⟩ := compile_det schema ω ω' fuel fuel' cfg.showDeprecationWarnings
                    cfg.toTsConfig hget hcon (hfr _ s1).1 d (hfr _ s1).2 hv hc hc'
                  simp only [← hgen] at h'
                  cases hg : compileIr ω op cfg.toTsConfig schema with
                  | error e =>
                    simp only [hg, Option.some.injEq, PanicOr.done.injEq] at h h'
                    exact .inr ⟨_, _, h.symm, h'.symm,
                      (hms.append (MsgsSim.of_forall sw)).append (MsgsSim.refl _)⟩
                  | ok c =>
                    simp only [hg, Option.some.injEq, PanicOr.done.injEq] at h h'
                    exact .inl ⟨_, _, c, h.symm, h'.symm, hms.append (MsgsSim.of_forall sw)⟩

/-- **C91 for one file.** Compiling a file under two hash orders reports the same, up to the order of the
messages and of the names listed in them. -/
theorem C91_file_report (hcon : Consistent schema) (hh : HashProof ext schema w cfg p) (ω ω' : Hash)
    (fuel fuel' : Nat) (r r' : CompileResult) (paint : Paint)
    (h : compileFile ω fuel ext cfg schema w p = some (.done r))
    (h' : compileFile ω' fuel' ext cfg schema w p = some (.done r')) :
    SameReport (printExitInfo paint r.messages).printed (printExitInfo paint r'.messages).printed ∧
      (printExitInfo paint r.messages).code = (printExitInfo paint r'.messages).code := by
  refine MsgsSim.report ?_ paint
  unfold compileFile at h h'
  cases hg : generateFile ω fuel ext cfg schema w p with
  | none => simp [hg] at h
  | some x =>
    cases x with
    | panic => simp [hg] at h
    | done y =>
      cases hg' : generateFile ω' fuel' ext cfg schema w p with
      | none => simp [hg'] at h'
      | some x' =>
        cases x' with
        | panic => simp [hg'] at h'
        | done y' =>
          rcases generate_sim ext cfg schema w p hcon hh ω ω' fuel fuel' hg hg' with
            ⟨ms, ms', c, rfl, rfl, hsim⟩ | ⟨ms, ms', rfl, rfl, hsim⟩
          · simp only [hg, hg'] at h h'
            revert h h'
            generalize w.write (outputPath p) c.contents = a
            obtain ⟨a1, a2⟩ := a
            cases a1 with
            | none =>
              simp only [Option.some.injEq, PanicOr.done.injEq]
              rintro rfl rfl
              exact hsim
            | some e =>
              simp only [Option.some.injEq, PanicOr.done.injEq]
              rintro rfl rfl
              exact MsgsSim.refl _
          · simp only [hg, hg', Option.some.injEq, PanicOr.done.injEq] at h h'
            subst h; subst h'
            exact hsim

end OneFile

section Whole
variable {ext : Ext} {cfg : CompileConfig} {schema : Schema} {w : World} {root : Entry} {rootPath : Path}

theorem file_sim {ω₁ ω₂ : Path → Hash} {fuel₁ fuel₂ : Nat} {p : Path} (hcon : Consistent schema)
    (hh : HashProof ext schema w cfg p)
    (h1 : ∃ gs ms, (poolCompile ω₁ fuel₁ ext cfg schema w p).1 = .done gs ms)
    (h2 : ∃ gs ms, (poolCompile ω₂ fuel₂ ext cfg schema w p).1 = .done gs ms) :
    MsgsSim (messagesOfFile ω₁ fuel₁ ext cfg schema w p) (messagesOfFile ω₂ fuel₂ ext cfg schema w p) ∧
    globalsOfFile ω₁ fuel₁ ext cfg schema w p = globalsOfFile ω₂ fuel₂ ext cfg schema w p ∧
    (poolCompile ω₁ fuel₁ ext cfg schema w p).2 = (poolCompile ω₂ fuel₂ ext cfg schema w p).2 := by
  obtain ⟨gs, m, e1⟩ := h1
  obtain ⟨gs', m', e2⟩ := h2
  unfold messagesOfFile globalsOfFile
  unfold poolCompile compileFile at e1 e2 ⊢
  cases g1 : generateFile (ω₁ p) fuel₁ ext cfg schema w p with
  | none => rw [g1] at e1; simp at e1
  | some x1 =>
    cases x1 with
    | panic => rw [g1] at e1; simp at e1
    | done y1 =>
      cases g2 : generateFile (ω₂ p) fuel₂ ext cfg schema w p with
      | none => rw [g2] at e2; simp at e2
      | some x2 =>
        cases x2 with
        | panic => rw [g2] at e2; simp at e2
        | done y2 =>
          rcases generate_sim ext cfg schema w p hcon hh _ _ fuel₁ fuel₂ g1 g2 with
            ⟨ms, ms', c, rfl, rfl, hsim⟩ | ⟨ms, ms', rfl, rfl, hsim⟩
          · simp only
            generalize w.write (outputPath p) c.contents = a
            obtain ⟨a1, a2⟩ := a
            cases a1 with
            | none => exact ⟨hsim, rfl, rfl⟩
            | some e => exact ⟨MsgsSim.refl _, rfl, rfl⟩
          · exact ⟨hsim, rfl, rfl⟩

theorem code_of_error (paint : Paint) {ms : List Msg} {m : Msg} (h : m ∈ ms)
    (hl : m.level ≠ .compileWarning) : (printExitInfo paint ms).code = 1 := by
  have : (countMsgs ms).2 > 0 := by
    rw [countMsgs_levels]
    have hm : m.level ∈ ms.map Msg.level := List.mem_map_of_mem h
    cases hlev : m.level with
    | compileWarning => exact absurd hlev hl
    | compileError =>
      rw [hlev] at hm
      have := List.count_pos_iff.2 hm
      simp only; omega
    | programError =>
      rw [hlev] at hm
      have := List.count_pos_iff.2 hm
      simp only; omega
  simp [printExitInfo, this]

/-- **C91.** Two complete runs over the same files, with any hash orders, numbers of threads and schedules,
leave the same files behind, globals file included, and exit with the same status.  If the globals can be
generated, they print the same texts, each as often, up to the order of the texts and of the names listed in a
text. -/
theorem C91_same_report {ω₁ ω₂ : Path → Hash} {ω₁' ω₂' : Hash} {fuel₁ fuel₂ threads₁ threads₂ : Nat}
    {s₁ s₂ : PoolSt World} {ms₁ ms₂ : List Msg} {w₁ w₂ : World} (paint : Paint)
    (hcon : Consistent schema) (hk : InputFieldsOnce schema)
    (hr : NoOutputRead w cfg root) (hd : OutputsDistinct w root) (hg : GlobalsApart w cfg rootPath root)
    (hh : ∀ p, FoundIn root p → HashProof ext schema w cfg p)
    (R₁ : RunsTo ω₁ ω₁' fuel₁ ext cfg schema rootPath root threads₁ w s₁ ms₁ w₁)
    (R₂ : RunsTo ω₂ ω₂' fuel₂ ext cfg schema rootPath root threads₂ w s₂ ms₂ w₂) :
    SameFiles w₁ w₂ ∧
    (printExitInfo paint ms₁).code = (printExitInfo paint ms₂).code ∧
    ((∀ n, GlobalName schema s₁.aggregate.2 n → ValidGlobal schema n) →
      SameReport (printExitInfo paint ms₁).printed (printExitInfo paint ms₂).printed) := by
  have A := after_run hr hd hg R₁
  have B := after_run hr hd hg R₂
  have hfile := fun p hp => file_sim hcon (hh p hp) (A.returned p hp) (B.returned p hp)
  have hu : ∀ n, n ∈ s₁.aggregate.2 ↔ n ∈ s₂.aggregate.2 := by
    intro n
    rw [A.used, B.used]
    exact exists_congr (fun p => and_congr_right (fun hp => by rw [(hfile p hp).2.1]))
  have hms : MsgsSim s₁.aggregate.1 s₂.aggregate.1 := by
    refine MsgsSim.perm A.messages (MsgsSim.append (MsgsSim.refl _) ?_) B.messages.symm
    exact MsgsSim.flatMap _ (fun p hp => (hfile p ((mem_filesOf root p).1 hp)).1)
  have hmt : ∀ {l l' : List String}, (∀ n, n ∈ l ↔ n ∈ l') → l = [] → l' = [] := by
    intro l l' h e
    subst e
    exact List.eq_nil_iff_forall_not_mem.2 (fun n hn => by simpa using (h n).2 hn)
  have hG : w₁.disk (globalsId w cfg rootPath) = w₂.disk (globalsId w cfg rootPath) ∧
      (MsgsSim ms₁ ms₂ ∨ ((printExitInfo paint ms₁).code = (printExitInfo paint ms₂).code ∧
        ¬ ∀ n, GlobalName schema s₁.aggregate.2 n → ValidGlobal schema n)) := by
    rcases A.globals with ⟨e1, m1, d1⟩ | ⟨n1, r, c1, q1⟩
    · rcases B.globals with ⟨e2, m2, d2⟩ | ⟨n2, r', c2, q2⟩
      · rw [d1, d2, m1, m2]
        exact ⟨rfl, .inl hms⟩
      · exact absurd (hmt hu e1) n2
    · rcases B.globals with ⟨e2, m2, d2⟩ | ⟨n2, r', c2, q2⟩
      · exact absurd (hmt (fun n => (hu n).symm) e2) n1
      · have hiff := C16_globals_deterministic schema hk ω₁' ω₂' fuel₁ fuel₂ _ _ _ hu r r' c1 c2
        rcases q1 with ⟨e, rfl, m1, d1⟩ | ⟨text, rfl, d1, m1⟩
        · rcases q2 with ⟨e', rfl, m2, d2⟩ | ⟨text, rfl, d2, m2⟩
          · have lev : ∀ e : TsError, e.toMsg.level ≠ .compileWarning := by
              intro e; cases e <;> simp [TsError.toMsg, Msg.simpleProgramError]
            refine ⟨by rw [d1, d2], .inr ⟨?_, fun hv => ?_⟩⟩
            · rw [m1, m2, code_of_error paint (m := e.toMsg) (by simp) (lev e),
                code_of_error paint (m := e'.toMsg) (by simp) (lev e')]
            · obtain ⟨t, ht⟩ := (C32_globals_ok_iff ω₁' fuel₁ cfg.toTsConfig schema s₁.aggregate.2 _ c1).2 hv
              simp at ht
          · have := (hiff text).2 rfl
            simp at this
        · have := (hiff text).1 rfl
          subst this
          rcases q2 with ⟨e', h, _⟩ | ⟨text', h, d2, m2⟩
          · simp at h
          · injection h with h
            subst h
            rw [d1, d2, m1, m2]
            exact ⟨rfl, .inl (hms.append (MsgsSim.refl _))⟩
  refine ⟨⟨by rw [A.resolve, B.resolve], by rw [A.writeErr, B.writeErr], fun id => ?_⟩, ?_, ?_⟩
  · by_cases ho : IsOutput w root id
    · obtain ⟨p, hp, rfl⟩ := ho
      rw [A.outputs p hp, B.outputs p hp, (hfile p hp).2.2]
    · by_cases hi : id = globalsId w cfg rootPath
      · subst hi; exact hG.1.symm
      · rw [A.others id ho hi, B.others id ho hi]
  · rcases hG.2 with h | h
    · exact (h.report paint).2
    · exact h.1
  · intro hv
    rcases hG.2 with h | h
    · exact (h.report paint).1
    · exact absurd hv h.2

end Whole

/-! ### The theorems applied -/

/-- The demo: two complete runs over the same two files, with different hash orders; one file imports a
missing file, which both runs report; all hypotheses of C91 are met, and the used globals are valid. -/
example : ∃ s₁ s₂ ms₁ ms₂ w₁ w₂,
    RunsTo (fun _ => .inOrder) .inOrder 5 Demo.ext Demo.cfg Demo.schema ⟨true, ["r"]⟩ Demo.fileTree 1
      Demo.world s₁ ms₁ w₁ ∧
    RunsTo (fun _ => .reversed) .reversed 5 Demo.ext Demo.cfg Demo.schema ⟨true, ["r"]⟩ Demo.fileTree 1
      Demo.world s₂ ms₂ w₂ ∧
    ms₁.length = 2 ∧ (printExitInfo .plain ms₁).code = 1 ∧
    SameReport (printExitInfo .plain ms₁).printed (printExitInfo .plain ms₂).printed := by
  obtain ⟨ms₁, w₁, e₁, R₁⟩ := demo_runs (ω := .inOrder) (w := Demo.world) (by decide +kernel)
  obtain ⟨ms₂, w₂, e₂, R₂⟩ := demo_runs (ω := .reversed) (w := Demo.world) (by decide +kernel)
  have hlen : (demoEnd .inOrder Demo.world).map (fun x => (x.1.length, (printExitInfo .plain x.1).code)) =
      some (2, 1) := by decide +kernel
  rw [e₁, Option.map_some, Option.some.injEq, Prod.mk.injEq] at hlen
  have hused : (demoRun .inOrder Demo.world).aggregate.2 = ["Role", "Filter"] := by decide +kernel
  have hres : ∃ text, compileGlobals .inOrder 5 Demo.cfg.toTsConfig Demo.schema ["Role", "Filter"] =
      some (.ok text) := by
    have : ((compileGlobals .inOrder 5 Demo.cfg.toTsConfig Demo.schema ["Role", "Filter"]).bind
        Except.toOption).isSome = true := by decide +kernel
    revert this
    cases compileGlobals .inOrder 5 Demo.cfg.toTsConfig Demo.schema ["Role", "Filter"] with
    | none => simp
    | some r => cases r <;> simp [Except.toOption]
  obtain ⟨text, ht⟩ := hres
  refine ⟨_, _, ms₁, ms₂, w₁, w₂, R₁, R₂, hlen.1, hlen.2, ?_⟩
  refine (C91_same_report .plain demo_consistent (ofJson_inputFieldsOnce (j := Demo.json) rfl)
    demo_noOutputRead demo_outputsDistinct demo_globalsApart (fun p hp => demo_hashProof hp) R₁ R₂).2.2 ?_
  rw [hused]
  exact (C32_globals_ok_iff .inOrder 5 _ _ _ _ ht).1 ⟨text, rfl⟩

namespace Demo

/-- A parser with a fixed result and an edit distance that finds all names close. -/
def allClose : Ext where
  parse := fun _ => .ok [.operation .query ⟨1, 1⟩ none [] [] [leaf 1 9 "nope"]]
  dist := fun _ _ => 2

/-- What is printed about `query { nope }` under a hash order. -/
def printedUnder (ω : Hash) : Option (List String) :=
  match compileFile ω 9 allClose Demo.cfg Demo.schema (oneFile "query { nope }") qPath with
  | some (.done r) => some r.texts
  | _ => none

end Demo

/-- **C91, why only up to order.** The order in which close names are offered depends on the hash order: the
same file is reported on with two different texts. -/
theorem C91_offered_names_order_witness :
    Demo.printedUnder .inOrder = some
      ["error: unknown field `nope`\n --> /r/q.graphql:1:9\n  |\n1 | query { nope }\n  |         ^\n  = help: Check the fields of `Query`. Did you mean one of the following: `__typename`, `node`, `viewer`, `search`, `count`?"] ∧
    Demo.printedUnder .reversed = some
      ["error: unknown field `nope`\n --> /r/q.graphql:1:9\n  |\n1 | query { nope }\n  |         ^\n  = help: Check the fields of `Query`. Did you mean one of the following: `count`, `search`, `viewer`, `node`, `__typename`?"] := by
  decide +kernel

end Qlc
