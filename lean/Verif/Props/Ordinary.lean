import Verif.Spec.Ordinary
import Verif.Props.Regenerate
import Verif.Props.Modules
/-
C114: in an ordinary project the files that are read, the outputs and the globals file are apart.
-/
set_option autoImplicit false

namespace Qlc
open Spec

theorem walk_proper {n : String} (h : ProperName n) (l : List String) : walkStep l n = l ++ [n] := by
  unfold walkStep
  rw [if_neg h.1, if_neg h.2]

theorem place_last (cwd : List String) (a : Bool) (dir : List String) {n : String} (h : ProperName n) :
    place cwd ⟨a, dir ++ [n]⟩ = place cwd ⟨a, dir⟩ ++ [n] := by
  unfold place
  simp only [List.foldl_append, List.foldl_cons, List.foldl_nil]
  exact walk_proper h _

theorem place_names (cwd : List String) (a : Bool) (dir : List String) : ∀ (names : List String),
    (∀ n ∈ names, ProperName n) → place cwd ⟨a, dir ++ names⟩ = place cwd ⟨a, dir⟩ ++ names := by
  intro names
  induction names generalizing dir with
  | nil => intro _; simp
  | cons n l ih =>
    intro h
    rw [show dir ++ n :: l = (dir ++ [n]) ++ l by simp, ih (dir ++ [n]) (fun m hm => h m (by simp [hm])),
      place_last cwd a dir (h n (by simp)), List.append_assoc]
    rfl

theorem found_names {d : Path} {es : List Entry} {p : Path} (h : FoundIn (.dir d es) p)
    (hl : ∀ e ∈ es, Listed d e) :
    ∃ names, (∀ n ∈ names, ProperName n) ∧ p = ⟨d.abs, d.comps ++ names⟩ := by
  generalize hr : Entry.dir d es = r at h
  induction h generalizing d es with
  | file _ hm _ =>
    injection hr with h1 h2
    subst h1 h2
    have := hl _ hm
    generalize he : Entry.file _ = e at this
    cases this with
    | file hn =>
      injection he with he
      subst he
      exact ⟨[_], by simpa using hn, rfl⟩
    | _ => cases he
  | @sub d' es' sub p' _ hm hf ih =>
    injection hr with h1 h2
    subst h1 h2
    have := hl _ hm
    cases this with
    | dir hn hsub =>
      obtain ⟨names, h1, h2⟩ := ih hsub rfl
      refine ⟨_ :: names, ?_, by rw [h2]; unfold entryPath; simp; rfl⟩
      intro n hm'
      rcases List.mem_cons.1 hm' with rfl | hm'
      · exact hn
      · exact h1 n hm'
    | file _ => cases hf
    | other _ => cases hf
    | bad => cases hf
    | badDir _ => cases hf

theorem proper_graphql (s : String) : ProperName (s ++ ".graphql") ∧ ProperName (s ++ ".graphql.d.ts") := by
  have len : ∀ t u : String, t = u → t.length = u.length := fun _ _ h => by rw [h]
  refine ⟨⟨fun h => ?_, fun h => ?_⟩, ⟨fun h => ?_, fun h => ?_⟩⟩ <;>
  · have := len _ _ h
    rw [String.length_append] at this
    have e1 : ".graphql".length = 8 := by decide
    have e2 : ".graphql.d.ts".length = 13 := by decide
    have e3 : ".".length = 1 := by decide
    have e4 : "..".length = 2 := by decide
    omega

theorem graphql_not_output (s t : String) : s ++ ".graphql" ≠ t ++ ".graphql.d.ts" := by
  intro h
  have := congrArg (fun x => x.toList.getLast?) h
  simp at this

/-- The last part of a place. -/
theorem place_document (cwd : List String) {p : Path} (h : p.extension = some "graphql") :
    ∃ s dir, p = ⟨p.abs, dir ++ [s ++ ".graphql"]⟩ ∧ outputPath p = ⟨p.abs, dir ++ [s ++ ".graphql.d.ts"]⟩ ∧
      place cwd p = place cwd ⟨p.abs, dir⟩ ++ [s ++ ".graphql"] ∧
      place cwd (outputPath p) = place cwd ⟨p.abs, dir⟩ ++ [s ++ ".graphql.d.ts"] := by
  obtain ⟨dir, s, _, h1, h2⟩ := (C40_output_path p).1 h
  refine ⟨s, dir, h1, h2, ?_, ?_⟩
  · conv => lhs; rw [h1]
    exact place_last _ _ _ (proper_graphql s).1
  · rw [h2]
    exact place_last _ _ _ (proper_graphql s).2

theorem place_fileName (cwd : List String) {p : Path} {n : String} (h : p.fileName = some n) :
    ∃ l, place cwd p = l ++ [n] := by
  unfold Path.fileName at h
  cases hl : p.comps.getLast? with
  | none => rw [hl] at h; cases h
  | some c =>
    rw [hl] at h
    simp only at h
    split at h
    · cases h
    · rename_i hc
      injection h with h
      subst h
      obtain ⟨dir, hd⟩ := List.getLast?_eq_some_iff.1 hl
      have : p = ⟨p.abs, dir ++ [c]⟩ := by rw [← hd]
      rw [this]
      exact ⟨_, place_last cwd _ _ ⟨fun e => hc (.inr e), fun e => hc (.inl e)⟩⟩

theorem found_graphql {e : Entry} {p : Path} (h : FoundIn e p) : p.extension = some "graphql" := by
  induction h with
  | file _ _ h => exact h
  | sub _ _ _ ih => exact ih

section
variable {cwd : List String} {w : World} {cfg : CompileConfig} {rootPath : Path} {root : Entry}

/-- **C114.** In an ordinary project nothing that is read is written, different documents have different outputs,
and the globals file is neither an output nor read. -/
theorem C114_paths_apart (h : Ordinary cwd w cfg rootPath root) :
    NoOutputRead w cfg root ∧ OutputsDistinct w root ∧ GlobalsApart w cfg rootPath root := by
  obtain ⟨n, hn, hd1, hd2⟩ := h.globals
  obtain ⟨gl, hgl⟩ := place_fileName cwd hn
  refine ⟨?_, ?_, ?_, ?_⟩
  · rintro p q hp hq ⟨p', hp', e⟩
    have := h.noLinks q (outputPath p') (.read hp hq) (.output hp') e
    obtain ⟨s, dir, _, _, e1, _⟩ := place_document cwd (h.imports p q hp hq)
    obtain ⟨s', dir', _, _, _, e2⟩ := place_document cwd (found_graphql hp')
    rw [e1, e2] at this
    have := List.append_inj_right' this rfl
    simp only [List.cons.injEq, and_true] at this
    exact graphql_not_output s s' this
  · intro p q hp hq e
    have := h.noLinks _ _ (.output hp) (.output hq) e
    obtain ⟨s, dir, ep, _, _, e1⟩ := place_document cwd (found_graphql hp)
    obtain ⟨s', dir', eq, _, _, e2⟩ := place_document cwd (found_graphql hq)
    rw [e1, e2] at this
    have hs := List.append_inj_right' this rfl
    simp only [List.cons.injEq, and_true] at hs
    have hs := append_str_right_cancel hs
    subst hs
    have hdir := List.append_inj_left' this rfl
    obtain ⟨es, rfl, hl⟩ := h.listing
    obtain ⟨ns, n1, n2⟩ := found_names hp hl
    obtain ⟨ns', m1, m2⟩ := found_names hq hl
    have places : place cwd p = place cwd q := by
      conv => lhs; rw [ep]
      conv => rhs; rw [eq]
      rw [place_last _ _ _ (proper_graphql s).1, place_last _ _ _ (proper_graphql s).1, hdir]
    rw [n2, m2, place_names _ _ _ _ n1, place_names _ _ _ _ m1] at places
    rw [n2, m2, List.append_cancel_left places]
  · rintro ⟨p, hp, e⟩
    have := h.noLinks _ _ .globals (.output hp) e
    obtain ⟨s, dir, _, _, _, e1⟩ := place_document cwd (found_graphql hp)
    rw [e1, hgl] at this
    have := List.append_inj_right' this rfl
    simp only [List.cons.injEq, and_true] at this
    exact hd2 s this
  · intro p q hp hq e
    have := h.noLinks _ _ (.read hp hq) .globals e
    obtain ⟨s, dir, _, _, e1, _⟩ := place_document cwd (h.imports p q hp hq)
    rw [e1, hgl] at this
    have := List.append_inj_right' this rfl
    simp only [List.cons.injEq, and_true] at this
    exact hd1 s this.symm

/-- **C114.** A run over an ordinary project leaves everything it reads as it was, for every schedule and number of
threads, and whether or not it succeeds. -/
theorem C114_sources_kept (h : Ordinary cwd w cfg rootPath root) {ω : Path → Hash} {ω' : Hash} {fuel threads : Nat}
    {ext : Ext} {schema : Schema} {s : PoolSt World} {ms : List Msg} {w' : World}
    (run : RunsTo ω ω' fuel ext cfg schema rootPath root threads w s ms w') :
    ∀ p q, FoundIn root p → Spec.Reads w cfg p q → w'.read q = w.read q := by
  obtain ⟨h1, h2, h3⟩ := C114_paths_apart h
  have A := after_run h1 h2 h3 run
  intro p q hp hq
  show w'.disk (w'.resolve q) = w.disk (w.resolve q)
  rw [A.resolve]
  exact A.others _ (h1 p q hp hq) (h3.2 p q hp hq)

theorem splitLastDot_noDot {cs : List Char} (h : '.' ∉ cs) : splitLastDot cs = none := by
  have : cs.reverse.dropWhile (· ≠ '.') = [] := by
    have key : ∀ l : List Char, '.' ∉ l → l.dropWhile (· ≠ '.') = [] := by
      intro l
      induction l with
      | nil => intro _; rfl
      | cons c l ih =>
        intro hl
        have hc : c ≠ '.' := fun e => hl (by simp [e])
        rw [List.dropWhile_cons_of_pos (by simpa using hc)]
        exact ih (fun hm => hl (by simp [hm]))
    exact key _ (fun hm => h (List.mem_reverse.1 hm))
  unfold splitLastDot
  simp only [this]

theorem noDot_ts {n : String} (h : '.' ∉ n.toList) : NoDocumentName (n ++ ".ts") := by
  refine ⟨fun a e => ?_, fun a e => ?_⟩
  · have := congrArg (fun x => x.toList.getLast?) e
    simp at this
  · have e' : n.toList = a.toList ++ ".graphql.d".toList := by
      have := congrArg String.toList e
      rw [String.toList_append, String.toList_append] at this
      have h2 : ".graphql.d.ts".toList = ".graphql.d".toList ++ ".ts".toList := by decide
      rw [h2, ← List.append_assoc] at this
      exact List.append_cancel_right this
    exact h (by rw [e']; simp)

/-- **C114.** The condition on the globals file holds whenever the name of the globals module, after the import prefix
of the root directory if it starts with it, ends in a name without a dot. -/
theorem C114_plain_globals {rest : String} (hrest :
      (∃ pre, cfg.rootDirImportPrefix = some pre ∧ cfg.globalTypesModuleName = pre ++ rest) ∨
      (rest = cfg.globalTypesModuleName ∧
        ∀ pre, cfg.rootDirImportPrefix = some pre → ¬ pre.toList <+: rest.toList))
    {dirs : List Char} {n : String} (hname : rest.toList = dirs ++ n.toList)
    (hdirs : dirs = [] ∨ dirs.getLast? = some '/') (hn : n ≠ "") (hslash : '/' ∉ n.toList) (hdot : '.' ∉ n.toList) :
    (globalsPath cfg rootPath).fileName = some (n ++ ".ts") ∧ NoDocumentName (n ++ ".ts") := by
  refine ⟨?_, noDot_ts hdot⟩
  have hbase : GoodBase n.toList := ⟨fun e => hn (String.toList_inj.1 (e.trans rfl)), hslash,
    fun e => hdot (by rw [e]; simp)⟩
  have hnd : n ≠ "." ∧ n ≠ ".." := ⟨fun e => hdot (by rw [e]; decide), fun e => hdot (by rw [e]; decide)⟩
  obtain ⟨A, C, hAC⟩ := ofChars_last dirs hdirs
  have hAC := hAC _ hbase
  rw [String.ofList_toList] at hAC
  have hjoin : ∃ b c, rootPath.join (Path.ofChars rest.toList) = ⟨b, c ++ [n]⟩ := by
    rw [hname, hAC]
    unfold Path.join
    dsimp only
    split
    · exact ⟨_, _, rfl⟩
    · split
      · split
        · rename_i hh
          cases C with
          | nil =>
            simp only [List.nil_append, List.head?_cons, Option.some.injEq] at hh
            exact absurd hh hnd.1
          | cons c C => exact ⟨rootPath.abs, rootPath.comps ++ C, by simp⟩
        · exact ⟨rootPath.abs, rootPath.comps ++ C, by simp⟩
      · exact ⟨_, _, rfl⟩
  obtain ⟨b, c, hb⟩ := hjoin
  have hbase' : globalsPath cfg rootPath = if (⟨b, c ++ [n]⟩ : Path).extension.isSome then ⟨b, c ++ [n]⟩
      else (⟨b, c ++ [n]⟩ : Path).withExtension "ts" := by
    rw [← hb]
    unfold globalsPath
    rcases hrest with ⟨pre, h1, h2⟩ | ⟨rfl, h2⟩
    · have : stripPrefixC pre.toList cfg.globalTypesModuleName.toList = some rest.toList :=
        stripPrefixC_some.2 (by rw [h2, String.toList_append])
      rw [h1]
      simp only [Option.bind_some, this]
    · cases hp : cfg.rootDirImportPrefix with
      | none => simp only [Option.bind_none]; rfl
      | some pre =>
        have : stripPrefixC pre.toList cfg.globalTypesModuleName.toList = none := stripPrefixC_none.2 (h2 pre hp)
        simp only [Option.bind_some, this]
        rfl
  have hfile : (⟨b, c ++ [n]⟩ : Path).fileName = some n := by
    unfold Path.fileName
    simp [hnd]
  have hstem : stemExt n = (n, none) := by
    unfold stemExt
    rw [splitLastDot_noDot hdot]
  rw [hbase']
  have hext : (⟨b, c ++ [n]⟩ : Path).extension = none := by
    unfold Path.extension
    rw [hfile]
    simp [hstem]
  rw [hext]
  simp only [Option.isSome_none, Bool.false_eq_true, if_false]
  unfold Path.withExtension
  rw [hfile]
  have hlen : ∀ m : String, m = n ++ "." ++ "ts" → m.length = n.length + 3 := by
    intro m e
    rw [e, String.length_append, String.length_append]
    have e1 : ".".length = 1 := by decide
    have e2 : "ts".length = 2 := by decide
    omega
  have hts : n ++ "." ++ "ts" = n ++ ".ts" := by rw [String.append_assoc]; rfl
  have l1 : ".".length = 1 := by decide
  have l2 : "..".length = 2 := by decide
  have h1 : n ++ ".ts" ≠ "." := fun e => by have := hlen _ (e.symm.trans hts.symm); omega
  have h2 : n ++ ".ts" ≠ ".." := fun e => by have := hlen _ (e.symm.trans hts.symm); omega
  unfold Path.fileName
  simp [hstem, hts, h1, h2]

end

/-! ### The demo project -/

/-- The demo project is ordinary, and a run over it ends with status 0. -/
theorem C114_demo : Ordinary [] Demo.runWorld Demo.cfg ⟨true, ["r"]⟩ Demo.fileTree ∧
    ∃ s ms w', RunsTo (fun _ => .inOrder) .reversed 9 Demo.runExt Demo.cfg Demo.respSchema ⟨true, ["r"]⟩
      Demo.fileTree 1 Demo.runWorld s ms w' ∧ (printExitInfo .plain ms).code = 0 := by
  refine ⟨⟨⟨_, rfl, ?_⟩, ?_, ⟨"globals.ts", by decide +kernel, ?_⟩, ?_⟩, ?_⟩
  · intro e he
    have hq : ProperName "q.graphql" := by constructor <;> decide
    have hf : ProperName "f.graphql" := by constructor <;> decide
    rcases List.mem_cons.1 he with rfl | he
    · exact Listed.file (d := ⟨true, ["r"]⟩) hq
    · rcases List.mem_cons.1 he with rfl | he
      · exact Listed.file (d := ⟨true, ["r"]⟩) hf
      · cases he
  · intro p q hp hq
    rcases full_reads (demo_found hp) hq with rfl | rfl <;> decide +kernel
  · exact noDot_ts (n := "globals") (by decide)
  · have hall : ∀ p, Touched Demo.runWorld Demo.cfg ⟨true, ["r"]⟩ Demo.fileTree p →
        p ∈ [Demo.qPath, Demo.fPath, outputPath Demo.qPath, outputPath Demo.fPath, ⟨true, ["r", "globals.ts"]⟩] := by
      intro p hp
      cases hp with
      | read h1 h2 => rcases full_reads (demo_found h1) h2 with rfl | rfl <;> simp
      | output h1 => rcases demo_found h1 with rfl | rfl <;> simp
      | globals =>
        have : globalsPath Demo.cfg ⟨true, ["r"]⟩ = ⟨true, ["r", "globals.ts"]⟩ := by decide +kernel
        rw [this]
        simp
    have key : ∀ p ∈ [Demo.qPath, Demo.fPath, outputPath Demo.qPath, outputPath Demo.fPath, ⟨true, ["r", "globals.ts"]⟩],
        ∀ q ∈ [Demo.qPath, Demo.fPath, outputPath Demo.qPath, outputPath Demo.fPath, ⟨true, ["r", "globals.ts"]⟩],
        Path.display p = Path.display q → place [] p = place [] q := by decide +kernel
    exact fun p q hp hq e => key p (hall p hp) q (hall q hq) e
  · have a1 : (endsWith fullRun fullEnd).isSome = true := by decide +kernel
    obtain ⟨t₁, b1⟩ := Option.isSome_iff_exists.1 a1
    obtain ⟨ms₁, w₁, e₁, h1, h2, h5, d1⟩ := endsWith_some b1
    exact ⟨_, ms₁, w₁, ⟨⟨_, rfl⟩, h1, h2, e₁⟩, h5⟩

/-- The default name of the globals module is plain. -/
example (cfg : CompileConfig) (rootPath : Path) (h : cfg.globalTypesModuleName = "graphql-globals")
    (hp : cfg.rootDirImportPrefix = none) : (globalsPath cfg rootPath).fileName = some "graphql-globals.ts" :=
  (C114_plain_globals (rest := "graphql-globals") (dirs := []) (n := "graphql-globals")
    (.inr ⟨h.symm, fun _ h' => by rw [hp] at h'; cases h'⟩) rfl (.inl rfl) (by decide) (by decide) (by decide)).1

/-- The demo project with a globals module named like one of its documents. -/
def Demo.clashCfg : CompileConfig := { Demo.cfg with globalTypesModuleName := "q.graphql" }

/-- A run over it. -/
def clashRun : PoolSt World :=
  (PoolSt.init Demo.runWorld 1 Demo.fileTree).run
    (poolCompile (fun _ => .inOrder) 9 Demo.runExt Demo.clashCfg Demo.respSchema) 1 Demo.fileSched

/-- What the run leaves of the document, if it ends with status 0. -/
def clashEnd : Option String :=
  match finishWork .reversed 9 Demo.clashCfg Demo.respSchema clashRun.world ⟨true, ["r"]⟩ clashRun.aggregate with
  | some (ms, w) =>
    if clashRun.finished && (pending clashRun).isEmpty && (printExitInfo .plain ms).code == 0 then
      (w.read Demo.qPath).toOption
    else none
  | none => none

/-- **C114.** The condition on the name of the globals file is needed: with a globals module named like a document
the program replaces the user's document by the globals file and reports success. -/
theorem C114_globals_over_document_witness : ∃ s ms w' t,
    RunsTo (fun _ => .inOrder) .reversed 9 Demo.runExt Demo.clashCfg Demo.respSchema ⟨true, ["r"]⟩
      Demo.fileTree 1 Demo.runWorld s ms w' ∧ (printExitInfo .plain ms).code = 0 ∧
    Demo.runWorld.read Demo.qPath = .ok Demo.runText ∧ w'.read Demo.qPath = .ok t ∧ t ≠ Demo.runText := by
  have a1 : clashEnd.any (fun t => t != Demo.runText) = true := by decide +kernel
  obtain ⟨t, b1, b2⟩ := (Option.any_eq_true _ _).1 a1
  unfold clashEnd at b1
  split at b1
  · rename_i ms w' he
    split at b1
    · rename_i hc
      simp only [Bool.and_eq_true, beq_iff_eq] at hc
      have hrun : RunsTo (fun _ => .inOrder) .reversed 9 Demo.runExt Demo.clashCfg Demo.respSchema ⟨true, ["r"]⟩
          Demo.fileTree 1 Demo.runWorld clashRun ms w' := ⟨⟨_, rfl⟩, hc.1.1, List.isEmpty_iff.1 hc.1.2, he⟩
      refine ⟨_, ms, w', t, hrun, hc.2, rfl, ?_, by simpa using b2⟩
      cases hd : w'.read Demo.qPath with
      | error _ => rw [hd] at b1; simp [Except.toOption] at b1
      | ok t' => rw [hd] at b1; simp only [Except.toOption, Option.some.injEq] at b1; rw [b1]
    · cases b1
  · cases b1

end Qlc
