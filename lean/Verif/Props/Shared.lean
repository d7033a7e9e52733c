import Verif.Lemmas.Shared
import Verif.Props.Report
import Verif.Props.EndToEnd
/-
Several invocations at the same time.
-/
set_option autoImplicit false

namespace Qlc
open Spec

section
variable {ext : Ext} {cfg : CompileConfig} {schema : Schema} {rootPath : Path} {root : Entry}
variable {n : Nat} {ω : Nat → Path → Hash} {ω' : Nat → Hash} {fuel threads : Nat → Nat}

/-- **C104.** Invocations with the same options over the same files at the same time: each of them could have
been alone.  It returns what it returns in some run on its own, and that run leaves the files that all of them
together leave. -/
theorem C104_each_as_if_alone {fs fs' : ByteFs} {ms : Nat → List Msg} (hcon : Consistent schema)
    (hk : InputFieldsOnce schema) (hr : NoOutputRead fs.view cfg root)
    (hd : OutputsDistinct fs.view root) (hg : GlobalsApart fs.view cfg rootPath root)
    (hn : (filesOf root).Nodup) (hh : ∀ p, FoundIn root p → HashProof ext schema fs.view cfg p)
    (R : RunTogether ext cfg schema rootPath root n ω ω' fuel threads fs ms fs') (k : Nat) (hkn : k < n) :
    ∃ F w', FineRunsTo (ω k) (ω' k) (fuel k) ext cfg schema rootPath root (threads k) fs.view F (ms k) w' ∧
      SameFiles w' fs'.view := by
  obtain ⟨es, S, hes, hS, hfs, hret⟩ := R
  have hL : NoneLeft n S := fun j hj _ => (hret j hj).2
  rw [hS] at hL
  obtain ⟨V, hC⟩ := company_run hcon hk hr hd hg hn hh es hes hL
  have hC : Company ext cfg schema rootPath root n ω ω' fuel threads fs S V := by rw [hS]; exact hC
  have halone : ∀ j, j < n → ∃ F, FineRunsTo (ω j) (ω' j) (fuel j) ext cfg schema rootPath root (threads j)
      fs.view F (ms j) (V j) ∧ (S.procs j) = ⟨erase F.pool (), F.flights, .returned (some (ms j))⟩ := by
    intro j hj
    obtain ⟨h1, h2⟩ := hret j hj
    cases hC.alone j hj with
    | working F hF hP _ => rw [hP] at h1; cases h1
    | finishing F f hF _ _ hP => rw [hP] at h1; cases h1
    | returned F r hF hfin hG hP =>
      rw [hP] at h1 h2
      simp only [MainPc.returned.injEq] at h1
      subst h1
      exact ⟨F, ⟨hF, hfin, h2, hG⟩, hP⟩
  have hquiet : ∀ j id t i, j < n → ¬ Writing fs.view (S.procs j) id t i := by
    intro j id t i hj hw
    obtain ⟨F, hR, hP⟩ := halone j hj
    rw [hP] at hw
    rcases hw with ⟨i', p, x, h, _⟩ | ⟨p, x, h, _⟩
    · have := no_flight_finished hr hd hn hR.reached hR.finished i'
      simp only at h
      rw [this] at h
      cases h
    · cases h
  obtain ⟨F, hR, hP⟩ := halone k hkn
  refine ⟨F, V k, hR, ?_⟩
  obtain ⟨f1, f2, _⟩ := (hC.alone k hkn).facts
  subst hfs
  refine ⟨hC.resolve.trans f1.symm, hC.writeErr.trans f2.symm, fun id => ?_⟩
  show readBytes (S.fs.files id) = _
  rcases hC.file id with ⟨a, b, _⟩ | ⟨t, i, b, hO, hf, hag, hw⟩
  · rw [a, b k hkn]; rfl
  · rcases hw with hw | ⟨j, hj, hw⟩
    · obtain ⟨w'', hR', hs⟩ := C66_whole_program hr hd hn F (ms k) (V k) hR
      rw [hf, hag.all hw, hs.2.2, outputText_final _ _ _ _ hcon hk hr hd hg hh hO hR']
      exact decode_utf8 t
    · exact absurd hw (hquiet j id t i hj)

/-- **C104.** Together they leave the files that any run alone over the same files leaves, whatever its hash
seeds and number of threads, each exits with the status of that run, and each prints the same texts, up to the
order of the texts and of the names listed in a text, if the globals can be generated. -/
theorem C104_together_as_one {fs fs' : ByteFs} {ms : Nat → List Msg} (hcon : Consistent schema)
    (hk : InputFieldsOnce schema) (hr : NoOutputRead fs.view cfg root)
    (hd : OutputsDistinct fs.view root) (hg : GlobalsApart fs.view cfg rootPath root)
    (hn : (filesOf root).Nodup) (hh : ∀ p, FoundIn root p → HashProof ext schema fs.view cfg p)
    (R : RunTogether ext cfg schema rootPath root n ω ω' fuel threads fs ms fs')
    {ω₁ : Path → Hash} {ω₁' : Hash} {fuel₁ threads₁ : Nat} {s₁ : PoolSt World} {ms₁ : List Msg} {w₁ : World}
    (R₁ : RunsTo ω₁ ω₁' fuel₁ ext cfg schema rootPath root threads₁ fs.view s₁ ms₁ w₁)
    (paint : Paint) (k : Nat) (hkn : k < n) :
    SameFiles w₁ fs'.view ∧
    (printExitInfo paint (ms k)).code = (printExitInfo paint ms₁).code ∧
    ((∀ n, GlobalName schema s₁.aggregate.2 n → ValidGlobal schema n) →
      SameReport (printExitInfo paint ms₁).printed (printExitInfo paint (ms k)).printed) := by
  obtain ⟨F, w', hR, hs⟩ := C104_each_as_if_alone hcon hk hr hd hg hn hh R k hkn
  obtain ⟨w'', hR', hs'⟩ := C66_whole_program hr hd hn F (ms k) w' hR
  obtain ⟨h1, h2, h3⟩ := C91_same_report paint hcon hk hr hd hg hh R₁ hR'
  refine ⟨⟨hs.1.trans (hs'.1.trans h1.1), hs.2.1.trans (hs'.2.1.trans h1.2.1), fun id => ?_⟩, h2.symm, h3⟩
  rw [hs.2.2, hs'.2.2, h1.2.2]

end

/-! ### The demo files -/

/-- Files as bytes that read as these texts. -/
def bytesOf (w : World) : ByteFs where
  resolve := w.resolve
  files := fun id => match w.disk id with | .ok t => .ok (utf8 t) | .error e => .error e
  writeErr := w.writeErr

theorem bytesOf_view (w : World) : (bytesOf w).view = w := by
  unfold ByteFs.view bytesOf
  have : (fun id => readBytes (match w.disk id with | .ok t => .ok (utf8 t) | .error e => .error e)) = w.disk := by
    funext id
    cases w.disk id with
    | ok t => exact decode_utf8 t
    | error e => rfl
  simp only [this]

/-- Two invocations with different seeds. -/
def sharedJobs (k : Nat) : Job :=
  ⟨Demo.cfg, Demo.schema, fun _ => if k = 0 then .inOrder else .reversed, if k = 0 then .inOrder else .reversed, 5, 1⟩

/-- They take turns, writing in pieces of different sizes. -/
def sharedEvents : List (Nat × Actor × Nat) :=
  (List.replicate 60 [(0, .worker 0, 300), (1, .worker 0, 211)]).flatten ++
    (List.replicate 30 [(1, .main, 70), (0, .main, 100)]).flatten

/-- The end. -/
def sharedEnd : Sys :=
  (Sys.init (bytesOf Demo.world) sharedJobs Demo.fileTree).run Demo.ext ⟨true, ["r"]⟩ sharedJobs sharedEvents

/-- What an invocation returned. -/
def Proc.messages (P : Proc) : List Msg := match P.main with | .returned (some ms) => ms | _ => []

theorem proc_messages {P : Proc} (h : (match P.main with | .returned (some _) => true | _ => false) = true) :
    P.main = .returned (some P.messages) := by
  obtain ⟨_, _, m⟩ := P
  cases m with
  | joining => simp at h
  | finishing f => simp at h
  | returned r => cases r <;> simp_all [Proc.messages]

theorem shared_run : RunTogether Demo.ext Demo.cfg Demo.schema ⟨true, ["r"]⟩ Demo.fileTree 2
    (fun k _ => if k = 0 then .inOrder else .reversed) (fun k => if k = 0 then .inOrder else .reversed)
    (fun _ => 5) (fun _ => 1) (bytesOf Demo.world) (fun k => (sharedEnd.procs k).messages) sharedEnd.fs := by
  refine ⟨sharedEvents, sharedEnd, by decide +kernel, rfl, rfl, fun k hk => ?_⟩
  have h : ∀ k < 2, (match (sharedEnd.procs k).main with | .returned (some _) => true | _ => false) = true ∧
      (pending (sharedEnd.procs k).pool).isEmpty = true := by decide +kernel
  exact ⟨proc_messages (h k hk).1, List.isEmpty_iff.1 (h k hk).2⟩

/-- C104 applies: both are in the middle of writing the same file at some moment, and in the end both have
reported two problems, exit with status 1 and have left the files of a run alone. -/
example : (∀ k < 2, (match (((Sys.init (bytesOf Demo.world) sharedJobs Demo.fileTree).run Demo.ext ⟨true, ["r"]⟩
        sharedJobs (sharedEvents.take 34)).procs k).flights 0 with
      | some (.writing p text n _) => p.comps == ["r", "q.graphql.d.ts"] && 0 < n && n < byteLength text
      | _ => false) = true) ∧
    ∀ k < 2, ∃ s ms w', RunsTo (fun _ => .inOrder) .inOrder 5 Demo.ext Demo.cfg Demo.schema ⟨true, ["r"]⟩
        Demo.fileTree 1 Demo.world s ms w' ∧ ms.length = 2 ∧ SameFiles w' sharedEnd.fs.view ∧
      (printExitInfo .plain (sharedEnd.procs k).messages).code = 1 := by
  refine ⟨by decide +kernel, fun k hk => ?_⟩
  obtain ⟨ms₁, w₁, e₁, R₁⟩ := demo_runs (ω := .inOrder) (w := Demo.world) (by decide +kernel)
  have hlen : (demoEnd .inOrder Demo.world).map (fun x => (x.1.length, (printExitInfo .plain x.1).code)) =
      some (2, 1) := by decide +kernel
  rw [e₁, Option.map_some, Option.some.injEq, Prod.mk.injEq] at hlen
  have hv := bytesOf_view Demo.world
  obtain ⟨h1, h2, _⟩ := C104_together_as_one (fs := bytesOf Demo.world) demo_consistent
    (ofJson_inputFieldsOnce (j := Demo.json) rfl) (by rw [hv]; exact demo_noOutputRead)
    (by rw [hv]; exact demo_outputsDistinct) (by rw [hv]; exact demo_globalsApart) demo_nodup
    (fun p hp => by rw [hv]; exact demo_hashProof hp) shared_run (by rw [hv]; exact R₁) .plain k hk
  exact ⟨_, ms₁, w₁, R₁, hlen.1, h1, h2.trans hlen.2⟩

/-! ### Where the hypotheses matter -/

/-- Two invocations, the second one without `readonly` types. -/
def mixedJobs (k : Nat) : Job :=
  ⟨{ Demo.cfg with useReadonlyTypes := k == 0 }, Demo.respSchema, fun _ => .inOrder, .inOrder, 9, 1⟩

/-- One invocation does all its work. -/
def wholeRun (k : Nat) : List (Nat × Actor × Nat) :=
  List.replicate 50 (k, .worker 0, 5000) ++ List.replicate 10 (k, .main, 5000)

/-- The second invocation opens the output of the query, then the first does all its work, then the second
goes on. -/
def mixedEvents : List (Nat × Actor × Nat) :=
  List.replicate 15 (1, .worker 0, 0) ++ wholeRun 0 ++ wholeRun 1

/-- Such invocations, started on the demo files. -/
def mixedRun (es : List (Nat × Actor × Nat)) : Sys :=
  (Sys.init (bytesOf Demo.runWorld) mixedJobs Demo.fileTree).run Demo.runExt ⟨true, ["r"]⟩ mixedJobs es

/-- An invocation has returned, and exits with status 0. -/
def succeeded (P : Proc) : Bool :=
  match P.main with
  | .returned (some ms) => (printExitInfo .plain ms).code == 0
  | _ => false

/-- The bytes of a file. -/
def contentsOf (S : Sys) (id : String) : Option (List UInt8) := (S.fs.files id).toOption

/-- **C104, why the options must be the same.** Two invocations with different options both succeed, and leave
a file that neither of them leaves when it is alone: the beginning is from one and the end from the other. -/
theorem C104_different_options_witness :
    succeeded ((mixedRun mixedEvents).procs 0) = true ∧ succeeded ((mixedRun mixedEvents).procs 1) = true ∧
    succeeded ((mixedRun (wholeRun 0)).procs 0) = true ∧ succeeded ((mixedRun (wholeRun 1)).procs 1) = true ∧
    (∃ mine other, contentsOf (mixedRun (wholeRun 1)) "/r/q.graphql.d.ts" = some mine ∧
      contentsOf (mixedRun (wholeRun 0)) "/r/q.graphql.d.ts" = some other ∧
      contentsOf (mixedRun mixedEvents) "/r/q.graphql.d.ts" = some (mine ++ other.drop mine.length)) ∧
    contentsOf (mixedRun mixedEvents) "/r/q.graphql.d.ts" ≠ contentsOf (mixedRun (wholeRun 0)) "/r/q.graphql.d.ts" ∧
    contentsOf (mixedRun mixedEvents) "/r/q.graphql.d.ts" ≠ contentsOf (mixedRun (wholeRun 1)) "/r/q.graphql.d.ts" := by
  have h : succeeded ((mixedRun mixedEvents).procs 0) = true ∧
      succeeded ((mixedRun mixedEvents).procs 1) = true ∧
      succeeded ((mixedRun (wholeRun 0)).procs 0) = true ∧ succeeded ((mixedRun (wholeRun 1)).procs 1) = true ∧
      ((contentsOf (mixedRun (wholeRun 1)) "/r/q.graphql.d.ts").isSome = true ∧
        (contentsOf (mixedRun (wholeRun 0)) "/r/q.graphql.d.ts").isSome = true ∧
        contentsOf (mixedRun mixedEvents) "/r/q.graphql.d.ts" =
          some (((contentsOf (mixedRun (wholeRun 1)) "/r/q.graphql.d.ts").getD []) ++
            ((contentsOf (mixedRun (wholeRun 0)) "/r/q.graphql.d.ts").getD []).drop
              ((contentsOf (mixedRun (wholeRun 1)) "/r/q.graphql.d.ts").getD []).length)) ∧
      contentsOf (mixedRun mixedEvents) "/r/q.graphql.d.ts" ≠
        contentsOf (mixedRun (wholeRun 0)) "/r/q.graphql.d.ts" ∧
      contentsOf (mixedRun mixedEvents) "/r/q.graphql.d.ts" ≠
        contentsOf (mixedRun (wholeRun 1)) "/r/q.graphql.d.ts" := by decide +kernel
  obtain ⟨h1, h2, h3, h4, ⟨a1, a2, a3⟩, h5, h6⟩ := h
  refine ⟨h1, h2, h3, h4, ?_, h5, h6⟩
  generalize contentsOf (mixedRun (wholeRun 1)) "/r/q.graphql.d.ts" = x at a1 a3
  generalize contentsOf (mixedRun (wholeRun 0)) "/r/q.graphql.d.ts" = y at a2 a3
  cases x with
  | none => cases a1
  | some mine =>
    cases y with
    | none => cases a2
    | some other => exact ⟨mine, other, rfl, rfl, a3⟩

/-- Two invocations with the same options. -/
def twinJobs (_ : Nat) : Job := ⟨Demo.cfg, Demo.respSchema, fun _ => .inOrder, .inOrder, 9, 1⟩

/-- **C104, why all must return.** The first invocation has succeeded; the second one, with the same options, is
stopped after it has opened an output.  The file, which the first one had written, is empty. -/
theorem C104_stopped_beside_finished_witness :
    let S := (Sys.init (bytesOf Demo.runWorld) twinJobs Demo.fileTree).run Demo.runExt ⟨true, ["r"]⟩ twinJobs
      (wholeRun 0 ++ List.replicate 15 (1, .worker 0, 0))
    succeeded (S.procs 0) = true ∧ contentsOf S "/r/q.graphql.d.ts" = some [] := by
  decide +kernel

/-- **C84.** A document is read as a text exactly if its bytes are the UTF-8 encoding of that text. -/
theorem C84_read_as_text (fs : ByteFs) (p : Path) (t : String) :
    fs.view.read p = .ok t ↔ fs.files (fs.resolve p) = .ok (utf8 t) := by
  show readBytes (fs.files (fs.resolve p)) = .ok t ↔ _
  cases fs.files (fs.resolve p) with
  | error e => simp [readBytes]
  | ok b => simp only [readBytes, decode_iff, Except.ok.injEq]

/-- **C84.** A document whose bytes are not UTF-8 is reported as unreadable, with its path, and nothing is
written. -/
theorem C84_not_text (ω : Path → Hash) (fuel : Nat) (ext : Ext) (cfg : CompileConfig) (schema : Schema) (fs : ByteFs)
    (p : Path) (b : List UInt8) (hb : fs.files (fs.resolve p) = .ok b) (hn : ∀ t, b ≠ utf8 t) :
    poolCompile ω fuel ext cfg schema fs.view p =
      (.done [] [.ioError "read" "stream did not contain valid UTF-8" p], fs.view) := by
  have hr : fs.view.read p = .error "stream did not contain valid UTF-8" := by
    show readBytes (fs.files (fs.resolve p)) = _
    rw [hb]
    simp only [readBytes]
    cases h : decodeUtf8 b with
    | ok t => exact absurd ((decode_iff b t).1 h) (hn t)
    | error e =>
      unfold decodeUtf8 at h
      split at h
      · cases h
      · exact h.symm
  unfold poolCompile compileFile generateFile readGraphqlFile
  rw [hr]

/-- Bytes that are no text. -/
example : ∀ t, [(0x66 : UInt8), 0xff] ≠ utf8 t := by
  intro t h
  have := (decode_iff _ t).2 h
  have he : (match decodeUtf8 [(0x66 : UInt8), 0xff] with | .ok _ => true | .error _ => false) = false := by
    decide +kernel
  rw [this] at he
  cases he

end Qlc
