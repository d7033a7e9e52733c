import Verif.Props.Imports
import Verif.Spec.Demo
/-
Properties C40 - C42: output paths, writes and reports of compiling one file.
-/
set_option autoImplicit false

namespace Qlc
open Spec

/-! ### C40: output paths -/

theorem splitLastDot_some (cs a b : List Char) :
    splitLastDot cs = some (a, b) ↔ cs = a ++ '.' :: b ∧ '.' ∉ b := by
  unfold splitLastDot
  simp only
  have hspan := List.takeWhile_append_dropWhile (p := fun c => decide (c ≠ '.')) (l := cs.reverse)
  have htake : '.' ∉ cs.reverse.takeWhile (fun c => decide (c ≠ '.')) := by
    intro h
    have := List.all_eq_true.1 (List.all_takeWhile (p := fun c => decide (c ≠ '.'))) _ h
    simp at this
  cases hd : cs.reverse.dropWhile (fun c => decide (c ≠ '.')) with
  | nil =>
    simp only [reduceCtorEq, false_iff, not_and]
    intro hcs
    rw [dropWhile_eq_nil] at hd
    have := hd '.' (by rw [hcs]; simp)
    simp at this
  | cons x r =>
    have hx : x = '.' := by
      have := dropWhile_head hd
      simpa using this
    subst hx
    simp only [Option.some.injEq, Prod.mk.injEq]
    rw [hd] at hspan
    constructor
    · rintro ⟨rfl, rfl⟩
      refine ⟨?_, by simpa using htake⟩
      have := congrArg List.reverse hspan
      simpa using this.symm
    · rintro ⟨hcs, hb⟩
      have h1 : cs.reverse = b.reverse ++ '.' :: a.reverse := by rw [hcs]; simp
      have h2 : cs.reverse.takeWhile (fun c => decide (c ≠ '.')) = b.reverse := by
        rw [h1, List.takeWhile_append_of_pos]
        · simp
        · intro c hc
          have : c ≠ '.' := fun e => hb (by rw [← e]; simpa using hc)
          simp [this]
      have h3 : cs.reverse.dropWhile (fun c => decide (c ≠ '.')) = '.' :: a.reverse := by
        rw [h1, List.dropWhile_append_of_pos]
        · simp
        · intro c hc
          have : c ≠ '.' := fun e => hb (by rw [← e]; simpa using hc)
          simp [this]
      rw [hd] at h3
      injection h3 with _ h3
      constructor
      · rw [h3]; simp
      · rw [h2]; simp

theorem stemExt_some (name ext : String) :
    (stemExt name).2 = some ext ↔
      ∃ stem : String, stem ≠ "" ∧ name = stem ++ "." ++ ext ∧ '.' ∉ ext.toList := by
  unfold stemExt
  have hdot : (".".toList) = ['.'] := by decide
  cases h : splitLastDot name.toList with
  | none =>
    simp only [reduceCtorEq, false_iff, not_exists, not_and]
    intro stem _ hn hx
    have := (splitLastDot_some name.toList stem.toList ext.toList).2
      ⟨by rw [hn]; simp [hdot], hx⟩
    rw [h] at this; cases this
  | some x =>
    obtain ⟨a, b⟩ := x
    obtain ⟨h1, h2⟩ := (splitLastDot_some _ _ _).1 h
    cases a with
    | nil =>
      simp only [reduceCtorEq, false_iff, not_exists, not_and]
      intro stem hs hn hx
      have := (splitLastDot_some name.toList stem.toList ext.toList).2
        ⟨by rw [hn]; simp [hdot], hx⟩
      rw [h] at this
      injection this with this
      injection this with h3 _
      exact hs (String.toList_inj.1 (by rw [← h3]; rfl))
    | cons c a =>
      simp only [Option.some.injEq]
      constructor
      · intro he
        subst he
        refine ⟨String.ofList (c :: a), ?_, ?_, by simpa using h2⟩
        · intro e
          have := congrArg String.toList e
          simp at this
        · apply String.toList_inj.1
          rw [h1]; simp [hdot]
      · rintro ⟨stem, _, hn, hx⟩
        have := (splitLastDot_some name.toList stem.toList ext.toList).2
          ⟨by rw [hn]; simp [hdot], hx⟩
        rw [h] at this
        injection this with this
        injection this with _ h4
        rw [h4]; simp

theorem stemExt_fst (stem ext : String) (hs : stem ≠ "") (hx : '.' ∉ ext.toList) :
    (stemExt (stem ++ "." ++ ext)).1 = stem := by
  have hdot : (".".toList) = ['.'] := by decide
  have := (splitLastDot_some (stem ++ "." ++ ext).toList stem.toList ext.toList).2
    ⟨by simp [hdot], hx⟩
  unfold stemExt
  rw [this]
  cases h : stem.toList with
  | nil => exact absurd (String.toList_inj.1 (by rw [h]; rfl)) hs
  | cons c a => simp only; rw [← h]; simp

/-- What it means to have a file name with an extension. -/
theorem extension_some (p : Path) (ext : String) (hne : ext ≠ "") :
    p.extension = some ext ↔ ∃ dir stem, stem ≠ "" ∧ '.' ∉ ext.toList ∧
      p = ⟨p.abs, dir ++ [stem ++ "." ++ ext]⟩ := by
  have hdot : (".".toList) = ['.'] := by decide
  unfold Path.extension Path.fileName
  cases hc : p.comps.getLast? with
  | none =>
    simp only [Option.bind_none, reduceCtorEq, false_iff, not_exists, not_and]
    intro dir stem _ _ hp
    rw [hp] at hc
    simp at hc
  | some c =>
    have hcomps : p.comps = p.comps.dropLast ++ [c] := by
      have hne' : p.comps ≠ [] := fun e => by rw [e] at hc; simp at hc
      rw [List.getLast?_eq_some_getLast hne'] at hc
      injection hc with hc
      rw [← hc]
      exact (List.dropLast_concat_getLast hne').symm
    have hspecial : ∀ stem : String, stem ≠ "" → ¬ (stem ++ "." ++ ext = ".." ∨ stem ++ "." ++ ext = ".") := by
      intro stem hs h
      have h1 : 0 < stem.toList.length := by
        rcases hl : stem.toList with _ | ⟨a, r⟩
        · exact absurd (String.toList_inj.1 (by rw [hl]; rfl)) hs
        · simp
      have h2 : 0 < ext.toList.length := by
        rcases hl : ext.toList with _ | ⟨a, r⟩
        · exact absurd (String.toList_inj.1 (by rw [hl]; rfl)) hne
        · simp
      rcases h with h | h <;>
      · have := congrArg (fun s => s.toList.length) h
        have l2 : "..".toList.length = 2 := by decide
        have l1 : ".".toList.length = 1 := by decide
        simp only [String.toList_append, List.length_append, l1, l2] at this
        omega
    simp only
    split
    · rename_i hsp
      simp only [Option.bind_none, reduceCtorEq, false_iff, not_exists, not_and]
      intro dir stem hs _ hp
      rw [hp] at hc
      simp only [List.getLast?_append, List.getLast?_singleton, Option.some_or, Option.some.injEq] at hc
      rw [← hc] at hsp
      exact hspecial stem hs hsp
    · simp only [Option.bind_some, stemExt_some]
      constructor
      · rintro ⟨stem, hs, hn, hx⟩
        refine ⟨p.comps.dropLast, stem, hs, hx, ?_⟩
        rw [← hn, ← hcomps]
      · rintro ⟨dir, stem, hs, hx, hp⟩
        refine ⟨stem, hs, ?_, hx⟩
        rw [hp] at hc
        simpa using hc.symm

/-- C40: the output of `dir/stem.graphql` is `dir/stem.graphql.d.ts`. -/
theorem C40_output_path (p : Path) :
    p.extension = some "graphql" ↔ ∃ dir stem, stem ≠ "" ∧
      p = ⟨p.abs, dir ++ [stem ++ ".graphql"]⟩ ∧
      outputPath p = ⟨p.abs, dir ++ [stem ++ ".graphql.d.ts"]⟩ := by
  rw [extension_some p "graphql" (by decide)]
  have hx : '.' ∉ "graphql".toList := by decide
  have e1 : ∀ stem : String, stem ++ "." ++ "graphql" = stem ++ ".graphql" := by
    intro stem; rw [String.append_assoc]; congr 1
  constructor
  · rintro ⟨dir, stem, hs, _, hp⟩
    refine ⟨dir, stem, hs, by rw [← e1]; exact hp, ?_⟩
    have hfn : p.fileName = some (stem ++ "." ++ "graphql") := by
      have hext := (extension_some p "graphql" (by decide)).2 ⟨dir, stem, hs, hx, hp⟩
      unfold Path.extension at hext
      have hl : p.comps.getLast? = some (stem ++ "." ++ "graphql") := by rw [hp]; simp
      unfold Path.fileName at hext ⊢
      rw [hl] at hext ⊢
      simp only at hext ⊢
      split at hext
      · simp at hext
      · rename_i h; rw [if_neg h]
    unfold outputPath Path.withExtension
    rw [hfn]
    simp only
    rw [stemExt_fst stem "graphql" hs hx]
    have hdl : p.comps.dropLast = dir := by rw [hp]; simp
    rw [hdl]
    have e2 : stem ++ "." ++ "graphql.d.ts" = stem ++ ".graphql.d.ts" := by
      rw [String.append_assoc]; congr 1
    rw [e2]
  · rintro ⟨dir, stem, hs, hp, _⟩
    exact ⟨dir, stem, hs, hx, by rw [e1]; exact hp⟩

theorem append_str_right_cancel {a b c : String} (h : a ++ c = b ++ c) : a = b := by
  apply String.toList_inj.1
  have := congrArg String.toList h
  simpa using this

/-- C40: distinct sources have distinct outputs. -/
theorem C40_output_injective (p q : Path) (hp : p.extension = some "graphql")
    (hq : q.extension = some "graphql") (h : outputPath p = outputPath q) : p = q := by
  obtain ⟨d, s, _, h1, h2⟩ := (C40_output_path p).1 hp
  obtain ⟨d', s', _, h1', h2'⟩ := (C40_output_path q).1 hq
  rw [h2, h2'] at h
  injection h with ha hc
  have hc2 := List.append_inj_left' hc rfl
  have hc3 := List.append_inj_right' hc rfl
  simp only [List.cons.injEq, and_true] at hc3
  have hs := append_str_right_cancel hc3
  rw [h1, h1', ha, hc2, hs]

/-- C40: an output is never itself a source. -/
theorem C40_output_is_not_a_source (p : Path) (hp : p.extension = some "graphql") :
    (outputPath p).extension = some "ts" ∧ outputPath p ≠ p := by
  obtain ⟨d, s, hs, h1, h2⟩ := (C40_output_path p).1 hp
  have hts : (outputPath p).extension = some "ts" := by
    rw [extension_some _ "ts" (by decide)]
    refine ⟨d, s ++ ".graphql.d", ?_, by decide, ?_⟩
    · intro e
      have := congrArg (fun s => s.toList.length) e
      simp at this
    · rw [h2]
      have : s ++ ".graphql.d" ++ "." ++ "ts" = s ++ ".graphql.d.ts" := by
        rw [String.append_assoc, String.append_assoc]; congr 1
      rw [this]
  refine ⟨hts, fun e => ?_⟩
  rw [e, hp] at hts
  revert hts; decide

example : outputPath ⟨true, ["r", "a.b.graphql"]⟩ = ⟨true, ["r", "a.b.graphql.d.ts"]⟩ := by decide
example : (⟨true, ["r", "a.b.graphql"]⟩ : Path).extension = some "graphql" := by decide
example : (⟨true, ["r", ".graphql"]⟩ : Path).extension = none := by decide

/-! ### C41, C42: compiling one file -/

section OneFile
variable (ω : Hash) (fuel : Nat) (ext : Ext) (cfg : CompileConfig) (schema : Schema) (w : World)
  (p : Path)

/-- The file is read, holds the single definition `d`, its imports are scanned, its selections are
valid, and code is generated. -/
structure Generates (contents : String) (d : Definition) (st : ImportSt) (op : Operation)
    (ws : List Warning) (c : Compile) : Prop where
  readable : w.read p = .ok contents
  parses : ext.parse contents = .ok [d]
  scanned : addImported w cfg fuel p contents ⟨[], []⟩ = some (.done st)
  valid : Operation.compile ω fuel ⟨schema, cfg.showDeprecationWarnings,
    (parseForeignFragments ω ext p st.imports st.messages).1⟩ d = some (.ok op, ws)
  generated : compileIr ω op cfg.toTsConfig schema = .ok c

theorem generateFile_ok (msgs : List Msg) (c : Compile) :
    generateFile ω fuel ext cfg schema w p = some (.done (.ok (msgs, c))) ↔
      ∃ contents d st op ws, Generates ω fuel ext cfg schema w p contents d st op ws c ∧
        msgs = (parseForeignFragments ω ext p st.imports st.messages).2 ++
          ws.map (Warning.toMsg contents p) := by
  unfold generateFile readGraphqlFile
  constructor
  · intro h
    cases hr : w.read p with
    | error e => simp [hr] at h
    | ok contents =>
      simp only [hr] at h
      cases hp : parseGraphqlFile ext contents p with
      | error e => simp [hp] at h
      | ok d =>
        simp only [hp] at h
        cases hs : addImported w cfg fuel p contents ⟨[], []⟩ with
        | none => simp [hs] at h
        | some x =>
          cases x with
          | panic => simp [hs] at h
          | done st =>
            simp only [hs] at h
            cases hc : Operation.compile ω fuel ⟨schema, cfg.showDeprecationWarnings,
                (parseForeignFragments ω ext p st.imports st.messages).1⟩ d with
            | none => simp [hc] at h
            | some y =>
              obtain ⟨r, ws⟩ := y
              cases r with
              | error es => simp [hc] at h
              | ok op =>
                simp only [hc] at h
                cases hg : compileIr ω op cfg.toTsConfig schema with
                | error e => simp [hg] at h
                | ok c' =>
                  simp only [hg, Option.some.injEq, PanicOr.done.injEq, Except.ok.injEq,
                    Prod.mk.injEq] at h
                  obtain ⟨h1, h2⟩ := h
                  subst h2
                  exact ⟨contents, d, st, op, ws,
                    ⟨hr, (parse_ok _ _ _ _).1 hp, hs, hc, hg⟩, h1.symm⟩
  · rintro ⟨contents, d, st, op, ws, G, rfl⟩
    simp only [G.readable, (parse_ok _ _ p _).2 G.parses, G.scanned, G.valid, G.generated]

/-- C41: compiling a file changes the disk only if it was read, parsed, valid and generated, and then
only at its own output path, where a successful write leaves exactly the generated text. -/
theorem C41_writes_only_its_output (r : CompileResult)
    (h : compileFile ω fuel ext cfg schema w p = some (.done r)) :
    ((∃ contents d st op ws c, Generates ω fuel ext cfg schema w p contents d st op ws c ∧
        (∀ id, id ≠ w.resolve (outputPath p) → r.world.disk id = w.disk id) ∧
        (∀ rep, r.result = .ok rep →
          r.world.disk (w.resolve (outputPath p)) = .ok c.contents ∧
          rep.globalTypesUsed = c.globalTypesUsed) ∧
        (w.writeErr (w.resolve (outputPath p)) = none → ∃ rep, r.result = .ok rep)) ∨
     ((¬ ∃ contents d st op ws c, Generates ω fuel ext cfg schema w p contents d st op ws c) ∧
        r.world = w ∧ ∃ es, r.result = .error es)) := by
  unfold compileFile at h
  cases hg : generateFile ω fuel ext cfg schema w p with
  | none => simp [hg] at h
  | some x =>
    cases x with
    | panic => simp [hg] at h
    | done y =>
      cases y with
      | error msgs =>
        simp only [hg, Option.some.injEq, PanicOr.done.injEq] at h
        subst h
        refine .inr ⟨?_, rfl, msgs, rfl⟩
        rintro ⟨contents, d, st, op, ws, c, G⟩
        have := (generateFile_ok ω fuel ext cfg schema w p _ c).2 ⟨contents, d, st, op, ws, G, rfl⟩
        rw [hg] at this
        simp at this
      | ok mc =>
        obtain ⟨msgs, c⟩ := mc
        obtain ⟨contents, d, st, op, ws, G, hm⟩ := (generateFile_ok ω fuel ext cfg schema w p _ c).1 hg
        refine .inl ⟨contents, d, st, op, ws, c, G, ?_⟩
        simp only [hg] at h
        unfold World.write at h
        cases hw : w.writeErr (w.resolve (outputPath p)) with
        | none =>
          simp only [hw, Option.some.injEq, PanicOr.done.injEq] at h
          subst h
          refine ⟨fun id hid => by simp [World.put, hid], fun rep hrep => ?_, fun _ => ⟨_, rfl⟩⟩
          simp only [Except.ok.injEq] at hrep
          subst hrep
          exact ⟨by simp [World.put], rfl⟩
        | some e =>
          obtain ⟨e, left⟩ := e
          cases left with
          | none =>
            simp only [hw, Option.some.injEq, PanicOr.done.injEq] at h
            subst h
            exact ⟨fun _ _ => rfl, fun rep hrep => by simp at hrep, fun hn => by simp at hn⟩
          | some left =>
            simp only [hw, Option.some.injEq, PanicOr.done.injEq] at h
            subst h
            exact ⟨fun id hid => by simp [World.put, hid], fun rep hrep => by simp at hrep,
              fun hn => by simp at hn⟩

/-- The messages of a result. -/
def CompileResult.messages (r : CompileResult) : List Msg :=
  match r.result with
  | .ok rep => rep.messages
  | .error es => es

/-- C42: every message from scanning imports, from importing non-fragments and from compiling the
selections is in the report, unless the generated text could not be written. -/
theorem C42_messages_are_reported (r : CompileResult)
    (h : compileFile ω fuel ext cfg schema w p = some (.done r))
    (hw : w.writeErr (w.resolve (outputPath p)) = none)
    (contents : String) (d : Definition) (st : ImportSt)
    (hr : w.read p = .ok contents) (hp : ext.parse contents = .ok [d])
    (hs : addImported w cfg fuel p contents ⟨[], []⟩ = some (.done st))
    (res : Except (List IrError) Operation) (ws : List Warning)
    (hc : Operation.compile ω fuel ⟨schema, cfg.showDeprecationWarnings,
      (parseForeignFragments ω ext p st.imports st.messages).1⟩ d = some (res, ws)) :
    (∀ m, ImportErr w cfg p contents m → m ∈ r.messages) ∧
    (∀ e ∈ st.imports, ∀ d', DefinesOnly ext e d' → d'.isFragment = false →
      notAFragment p e.2.2 ∈ r.messages) ∧
    (∀ wn ∈ ws, Warning.toMsg contents p wn ∈ r.messages) ∧
    (∀ es, res = .error es → ∀ e ∈ es, IrError.toMsg ext.dist contents p e ∈ r.messages) := by
  have hmsgs : (∀ m ∈ (parseForeignFragments ω ext p st.imports st.messages).2, m ∈ r.messages) ∧
      (∀ wn ∈ ws, Warning.toMsg contents p wn ∈ r.messages) ∧
      (∀ es, res = .error es → ∀ e ∈ es, IrError.toMsg ext.dist contents p e ∈ r.messages) := by
    unfold compileFile generateFile readGraphqlFile World.write at h
    simp only [hr, (parse_ok _ _ p _).2 hp, hs, hc, hw] at h
    cases res with
    | error es =>
      simp only [Option.some.injEq, PanicOr.done.injEq] at h
      subst h
      simp only [CompileResult.messages, List.mem_append, List.mem_map]
      refine ⟨fun m hm => .inl hm, fun wn hwn => .inr (.inr ⟨wn, hwn, rfl⟩), ?_⟩
      intro es' he e hes
      injection he with he
      subst he
      exact .inr (.inl ⟨e, hes, rfl⟩)
    | ok op =>
      cases hg : compileIr ω op cfg.toTsConfig schema with
      | error e =>
        simp only [hg, Option.some.injEq, PanicOr.done.injEq] at h
        subst h
        simp only [CompileResult.messages, List.mem_append, List.mem_map]
        exact ⟨fun m hm => .inl (.inl hm), fun wn hwn => .inl (.inr ⟨wn, hwn, rfl⟩),
          fun es he => by cases he⟩
      | ok c =>
        simp only [hg, Option.some.injEq, PanicOr.done.injEq] at h
        subst h
        simp only [CompileResult.messages, List.mem_append, List.mem_map]
        exact ⟨fun m hm => .inl hm, fun wn hwn => .inr ⟨wn, hwn, rfl⟩,
          fun es he => by cases he⟩
  have hF := (C39_scope_and_errors ω ext p st.imports st.messages).2.2
  have hE := (C35_import_closure w cfg fuel p contents st hs).2.2.2
  refine ⟨fun m hm => hmsgs.1 m ((hF m).2 (.inl ((hE m).2 hm))), fun e he d' hd hf => ?_,
    hmsgs.2.1, hmsgs.2.2⟩
  exact hmsgs.1 _ ((hF _).2 (.inr ⟨e, he, d', hd, hf, rfl⟩))

/-- C42, the other case: when the text was generated but writing it failed, the write error is all that
is reported, whatever messages had been gathered. -/
theorem C42_write_error_hides_messages (r : CompileResult)
    (h : compileFile ω fuel ext cfg schema w p = some (.done r)) (e : String) (left : Option String)
    (hw : w.writeErr (w.resolve (outputPath p)) = some (e, left))
    (hg : ∃ contents d st op ws c, Generates ω fuel ext cfg schema w p contents d st op ws c) :
    r.messages = [⟨.compileError, none,
      "could not write `" ++ (outputPath p).display ++ "`: " ++ e⟩] := by
  obtain ⟨contents, d, st, op, ws, c, G⟩ := hg
  have := (generateFile_ok ω fuel ext cfg schema w p _ c).2 ⟨contents, d, st, op, ws, G, rfl⟩
  unfold compileFile World.write at h
  rw [this] at h
  simp only [hw] at h
  cases left with
  | none =>
    simp only [Option.some.injEq, PanicOr.done.injEq] at h
    subst h
    rfl
  | some left =>
    simp only [Option.some.injEq, PanicOr.done.injEq] at h
    subst h
    rfl

end OneFile

/-- The demo file compiles, is written, and its report carries the error about the missing import and the
deprecation warning: the hypotheses of C41 and C42 are met. -/
example : (match compileFile .inOrder 5 Demo.ext Demo.cfg Demo.schema Demo.world Demo.qPath with
    | some (.done r) => (r.messages.map Msg.message, r.world.disk "/r/q.graphql.d.ts" = .error "missing")
    | _ => ([], True)) =
    (["could not read `/r/m.graphql`: missing",
      "use of deprecated field `old` on type `User`"], False) := by
  have h1 : (match compileFile .inOrder 5 Demo.ext Demo.cfg Demo.schema Demo.world Demo.qPath with
    | some (.done r) => r.messages.map Msg.message
    | _ => []) = ["could not read `/r/m.graphql`: missing",
      "use of deprecated field `old` on type `User`"] := by decide +kernel
  have h2 : (match compileFile .inOrder 5 Demo.ext Demo.cfg Demo.schema Demo.world Demo.qPath with
    | some (.done r) => decide (r.world.disk "/r/q.graphql.d.ts" = .error "missing")
    | _ => true) = false := by decide +kernel
  cases h : compileFile .inOrder 5 Demo.ext Demo.cfg Demo.schema Demo.world Demo.qPath with
  | none => rw [h] at h1; simp at h1
  | some x =>
    cases x with
    | panic => rw [h] at h1; simp at h1
    | done r =>
      rw [h] at h1 h2
      simp only [decide_eq_false_iff_not] at h1 h2
      simp only [h1, Prod.mk.injEq, true_and, eq_iff_iff, iff_false]
      exact h2

end Qlc
