import Verif.Model.Steps
import Verif.Spec.Crash
import Verif.Props.Files
/-
The finer model run without interruption is the coarser one; what interrupted operations leave behind.
-/
set_option autoImplicit false

namespace Qlc
open Spec

/-! ### Uninterrupted runs -/

theorem Ops.run_bind {α β : Type} (o : Ops α) (f : α → Ops β) :
    ∀ w, (o.bind f).run w = (f (o.run w).1).run (o.run w).2 := by
  induction o with
  | ret a => intro w; rfl
  | read p k ih => intro w; exact ih _ w
  | write p c k ih => intro w; exact ih _ _

theorem importLoopOps_run (w : World) (cfg : CompileConfig) (cf cd : Path)
    (rec : Path → String → ImportSt → Ops (Option (PanicOr ImportSt)))
    (rec' : Path → String → ImportSt → Option (PanicOr ImportSt))
    (h : ∀ p c s, (rec p c s).run w = (rec' p c s, w)) :
    ∀ (lines : List (List Char)) (idx : Nat) (s : ImportSt),
      (importLoopOps cfg cf cd rec idx lines s).run w = (importLoop w cfg cf cd rec' idx lines s, w)
  | [], _, _ => rfl
  | line :: rest, idx, s => by
    rw [importLoopOps, importLoop]
    cases lineKind line with
    | skip => exact importLoopOps_run w cfg cf cd rec rec' h rest _ _
    | stop => rfl
    | «import» after =>
      simp only
      cases getFilePathOfFragment cfg after cd with
      | none => rfl
      | some file =>
        simp only [Ops.run, readGraphqlFile]
        cases w.read file with
        | error e => exact importLoopOps_run w cfg cf cd rec rec' h rest _ _
        | ok contents =>
          simp only
          rw [Ops.run_bind, h]
          simp only
          cases rec' file contents s with
          | none => rfl
          | some r =>
            cases r with
            | panic => rfl
            | done s' => exact importLoopOps_run w cfg cf cd rec rec' h rest _ _

theorem addImportedOps_run (w : World) (cfg : CompileConfig) : ∀ (n : Nat) (p : Path) (c : String)
    (s : ImportSt), (addImportedOps cfg n p c s).run w = (addImported w cfg n p c s, w)
  | 0, _, _, _ => rfl
  | n + 1, p, c, s => importLoopOps_run w cfg p p.pop _ _ (addImportedOps_run w cfg n) _ 0 s

theorem compileOps_run (ω : Path → Hash) (fuel : Nat) (ext : Ext) (cfg : CompileConfig) (schema : Schema)
    (w : World) (p : Path) :
    (compileOps (ω p) fuel ext cfg schema p).run w = poolCompile ω fuel ext cfg schema w p := by
  unfold compileOps poolCompile compileFile generateFile readGraphqlFile
  simp only [Ops.run]
  cases w.read p with
  | error e => rfl
  | ok contents =>
    simp only
    cases parseGraphqlFile ext contents p with
    | error m => rfl
    | ok d =>
      simp only
      rw [Ops.run_bind, addImportedOps_run]
      simp only
      cases addImported w cfg fuel p contents ⟨[], []⟩ with
      | none => rfl
      | some r =>
        cases r with
        | panic => rfl
        | done st =>
          simp only
          cases Operation.compile (ω p) fuel ⟨schema, cfg.showDeprecationWarnings,
              (parseForeignFragments (ω p) ext p st.imports st.messages).1⟩ d with
          | none => rfl
          | some r =>
            obtain ⟨r, ws⟩ := r
            cases r with
            | error es => rfl
            | ok op =>
              simp only
              cases compileIr (ω p) op cfg.toTsConfig schema with
              | error e => rfl
              | ok c =>
                simp only [Ops.run]
                cases w.write (outputPath p) c.contents with
                | mk o w' => cases o <;> rfl

theorem finishOps_run (ω : Hash) (fuel : Nat) (cfg : CompileConfig) (schema : Schema) (w : World)
    (rootPath : Path) (agg : List Msg × List String) :
    (finishOps ω fuel cfg schema rootPath agg).run w =
      match finishWork ω fuel cfg schema w rootPath agg with
      | none => (none, w)
      | some (ms, w') => (some ms, w') := by
  unfold finishOps finishWork compileGlobalTypesFile
  cases agg.2.isEmpty with
  | true => rfl
  | false =>
    simp only [Bool.false_eq_true, if_false]
    cases compileGlobals ω fuel cfg.toTsConfig schema agg.2 with
    | none => rfl
    | some r =>
      cases r with
      | error e => rfl
      | ok c =>
        simp only [Ops.run]
        cases w.write (globalsPath cfg rootPath) c with
        | mk o w' => cases o <;> rfl

/-! ### What a program reads and writes -/

/-- With reads answered from `w`, the program reads only paths in `S` and at the end writes `out` at most
once. -/
inductive Well {α : Type} (w : World) (S : Path → Prop) (out : Path) : Ops α → Prop where
  | ret (a : α) : Well w S out (.ret a)
  | read (q : Path) (k : Except String String → Ops α) : S q → Well w S out (k (w.read q)) →
      Well w S out (.read q k)
  | write (c : String) (k : Option String → Ops α) : (∀ e, ∃ a, k e = .ret a) →
      Well w S out (.write out c k)

/-- With reads answered from `w`, the program reads only paths in `S` and writes nothing. -/
inductive ReadOnly {α : Type} (w : World) (S : Path → Prop) : Ops α → Prop where
  | ret (a : α) : ReadOnly w S (.ret a)
  | read (q : Path) (k : Except String String → Ops α) : S q → ReadOnly w S (k (w.read q)) →
      ReadOnly w S (.read q k)

theorem ReadOnly.run {α : Type} {w : World} {S : Path → Prop} {o : Ops α} (h : ReadOnly w S o) :
    (o.run w).2 = w := by
  induction h with
  | ret => rfl
  | read q k _ _ ih => exact ih

theorem ReadOnly.bind {α β : Type} {w : World} {S : Path → Prop} {o : Ops α} (h : ReadOnly w S o)
    (f : α → Ops β) (hf : ReadOnly w S (f (o.run w).1)) : ReadOnly w S (o.bind f) := by
  induction h with
  | ret => exact hf
  | read q k hq _ ih => exact .read q _ hq (ih hf)

theorem ReadOnly.bind_well {α β : Type} {w : World} {S : Path → Prop} {out : Path} {o : Ops α}
    (h : ReadOnly w S o) (f : α → Ops β) (hf : Well w S out (f (o.run w).1)) :
    Well w S out (o.bind f) := by
  induction h with
  | ret => exact hf
  | read q k hq _ ih => exact .read q _ hq (ih hf)

theorem importLoopOps_readOnly (w : World) (cfg : CompileConfig) (p0 p : Path) (c : String)
    (hp : Reads w cfg p0 p) (hc : w.read p = .ok c)
    (rec : Path → String → ImportSt → Ops (Option (PanicOr ImportSt)))
    (hrec : ∀ q c s, Reads w cfg p0 q → w.read q = .ok c → ReadOnly w (Reads w cfg p0) (rec q c s)) :
    ∀ (lines : List (List Char)) (idx : Nat) (s : ImportSt),
      (∀ il ∈ ((commentBlock lines).zipIdx (idx + 1)).filterMap (fun e => importLine? e.1 e.2),
        il ∈ importsOf c) →
      ReadOnly w (Reads w cfg p0) (importLoopOps cfg p p.pop rec idx lines s)
  | [], _, _, _ => .ret _
  | line :: rest, idx, s, hl => by
    have hk := lineKind_spec line (idx + 1)
    have ih := importLoopOps_readOnly w cfg p0 p c hp hc rec hrec rest (idx + 1)
    rw [importLoopOps]
    simp only [commentBlock, List.takeWhile_cons] at hl
    cases hlk : lineKind line with
    | stop => exact .ret _
    | skip =>
      simp only [hlk, lineKindMeant] at hk
      simp only [hk.1, if_true, List.zipIdx_cons, List.filterMap_cons, hk.2] at hl
      exact ih _ hl
    | «import» after =>
      simp only [hlk, lineKindMeant] at hk
      simp only [hk.1, if_true, List.zipIdx_cons, List.filterMap_cons, hk.2] at hl
      have ih := fun s => ih s (fun il h => hl il (List.mem_cons_of_mem _ h))
      simp only
      cases hf : getFilePathOfFragment cfg after p.pop with
      | none => exact .ret _
      | some q =>
        have hq : Reads w cfg p0 q := .imported hp hc ⟨hl _ (List.mem_cons_self ..), hf⟩
        refine .read q _ hq ?_
        cases hr : w.read q with
        | error e => exact ih _
        | ok cq =>
          refine (hrec q cq s hq hr).bind _ ?_
          cases ((rec q cq s).run w).1 with
          | none => exact .ret _
          | some r =>
            cases r with
            | panic => exact .ret _
            | done s' => exact ih _

/-- Scanning imports only reads. -/
theorem addImportedOps_readOnly (w : World) (cfg : CompileConfig) (p0 : Path) : ∀ (n : Nat) (p : Path)
    (c : String) (s : ImportSt), Reads w cfg p0 p → w.read p = .ok c →
    ReadOnly w (Reads w cfg p0) (addImportedOps cfg n p c s)
  | 0, _, _, _, _, _ => .ret _
  | n + 1, p, c, s, hp, hc =>
    importLoopOps_readOnly w cfg p0 p c hp hc _
      (fun q c s => addImportedOps_readOnly w cfg p0 n q c s) _ 0 s (fun _ h => h)

theorem compileOps_well (ω : Hash) (fuel : Nat) (ext : Ext) (cfg : CompileConfig) (schema : Schema)
    (w : World) (p : Path) :
    Well w (Reads w cfg p) (outputPath p) (compileOps ω fuel ext cfg schema p) := by
  unfold compileOps
  refine .read p _ .self ?_
  cases hr : w.read p with
  | error e => exact .ret _
  | ok contents =>
    simp only
    cases parseGraphqlFile ext contents p with
    | error m => exact .ret _
    | ok d =>
      simp only
      refine (addImportedOps_readOnly w cfg p fuel p contents _ .self hr).bind_well _ ?_
      rw [addImportedOps_run]
      simp only
      cases addImported w cfg fuel p contents ⟨[], []⟩ with
      | none => exact .ret _
      | some r =>
        cases r with
        | panic => exact .ret _
        | done st =>
          simp only
          cases Operation.compile ω fuel ⟨schema, cfg.showDeprecationWarnings,
              (parseForeignFragments ω ext p st.imports st.messages).1⟩ d with
          | none => exact .ret _
          | some r =>
            obtain ⟨r, ws⟩ := r
            cases r with
            | error es => exact .ret _
            | ok op =>
              simp only
              cases compileIr ω op cfg.toTsConfig schema with
              | error e => exact .ret _
              | ok c => exact .write _ _ (fun e => by cases e <;> exact ⟨_, rfl⟩)

theorem finishOps_well (ω : Hash) (fuel : Nat) (cfg : CompileConfig) (schema : Schema) (w : World)
    (rootPath : Path) (agg : List Msg × List String) :
    Well w (fun _ => False) (globalsPath cfg rootPath) (finishOps ω fuel cfg schema rootPath agg) := by
  unfold finishOps
  cases agg.2.isEmpty with
  | true => exact .ret _
  | false =>
    simp only [Bool.false_eq_true, if_false]
    cases compileGlobals ω fuel cfg.toTsConfig schema agg.2 with
    | none => exact .ret _
    | some r =>
      cases r with
      | error e => exact .ret _
      | ok c => exact .write _ _ (fun e => by cases e <;> exact ⟨_, rfl⟩)

/-! ### Programs under way -/

/-- Answering reads from `w` leads from one program to the other. -/
inductive Reaches {α : Type} (w : World) (P : Ops α) : Ops α → Prop where
  | refl : Reaches w P P
  | read (q : Path) (k : Except String String → Ops α) : Reaches w P (.read q k) →
      Reaches w P (k (w.read q))

theorem Reaches.run {α : Type} {w : World} {P o : Ops α} (h : Reaches w P o) : o.run w = P.run w := by
  induction h with
  | refl => rfl
  | read q k _ ih => exact ih

theorem Reaches.well {α : Type} {w : World} {S : Path → Prop} {out : Path} {P o : Ops α}
    (h : Reaches w P o) (hP : Well w S out P) : Well w S out o := by
  induction h with
  | refl => exact hP
  | read q k _ ih =>
    cases ih with
    | read _ _ _ h => exact h

/-- Reads lead to the same place whichever program they start from. -/
theorem Reaches.of_read {α : Type} {w : World} {q : Path} {k : Except String String → Ops α} {o : Ops α}
    (h : Reaches w (.read q k) o) : o = .read q k ∨ Reaches w (k (w.read q)) o := by
  induction h with
  | refl => exact .inl rfl
  | read q' k' h ih =>
    rcases ih with h | h
    · injection h with h1 h2
      subst h1; subst h2
      exact .inr .refl
    · exact .inr (.read _ _ h)

theorem Reaches.of_bind {α β : Type} {w : World} {S : Path → Prop} {o : Ops α} (h : ReadOnly w S o)
    (f : α → Ops β) {o' : Ops β} (hr : Reaches w (o.bind f) o') :
    Reaches w (f (o.run w).1) o' ∨ ∃ q k, o' = .read q k := by
  induction h with
  | ret => exact .inl hr
  | read q k _ _ ih =>
    rcases Reaches.of_read hr with h | h
    · exact .inr ⟨_, _, h⟩
    · exact ih h

theorem Reaches.of_ret {α : Type} {w : World} {a : α} {o : Ops α} (h : Reaches w (.ret a) o) :
    o = .ret a := by
  induction h with
  | refl => rfl
  | read q k _ ih => cases ih

theorem Reaches.of_write {α : Type} {w : World} {q : Path} {c : String} {k : Option String → Ops α}
    {o : Ops α} (h : Reaches w (.write q c k) o) : o = .write q c k := by
  induction h with
  | refl => rfl
  | read q k _ ih => cases ih

/-- A compile that is about to write is about to write the generated text. -/
theorem compileOps_writes {ω : Hash} {fuel : Nat} {ext : Ext} {cfg : CompileConfig} {schema : Schema}
    {w : World} {p q : Path} {c : String} {k : Option String → Ops FileOutcome}
    (h : Reaches w (compileOps ω fuel ext cfg schema p) (.write q c k)) :
    ∃ msgs out, generateFile ω fuel ext cfg schema w p = some (.done (.ok (msgs, out))) ∧
      c = out.contents := by
  unfold compileOps at h
  unfold generateFile readGraphqlFile
  rcases h.of_read with h | h
  · cases h
  cases hr : w.read p with
  | error e => rw [hr] at h; cases h.of_ret
  | ok contents =>
    rw [hr] at h
    simp only at h ⊢
    cases hp : parseGraphqlFile ext contents p with
    | error m => rw [hp] at h; cases h.of_ret
    | ok d =>
      rw [hp] at h
      simp only at h ⊢
      rcases Reaches.of_bind (addImportedOps_readOnly w cfg p fuel p contents _ .self hr) _ h with h | h
      · rw [addImportedOps_run] at h
        simp only at h
        cases ha : addImported w cfg fuel p contents ⟨[], []⟩ with
        | none => rw [ha] at h; cases h.of_ret
        | some r =>
          cases r with
          | panic => rw [ha] at h; cases h.of_ret
          | done st =>
            rw [ha] at h
            simp only at h ⊢
            cases hc : Operation.compile ω fuel ⟨schema, cfg.showDeprecationWarnings,
                (parseForeignFragments ω ext p st.imports st.messages).1⟩ d with
            | none => rw [hc] at h; cases h.of_ret
            | some r =>
              obtain ⟨r, ws⟩ := r
              rw [hc] at h
              cases r with
              | error es => cases h.of_ret
              | ok op =>
                simp only at h ⊢
                cases hi : compileIr ω op cfg.toTsConfig schema with
                | error e => rw [hi] at h; cases h.of_ret
                | ok out =>
                  rw [hi] at h
                  have := h.of_write
                  injection this with h1 h2 h3
                  exact ⟨_, out, rfl, h2⟩
      · obtain ⟨_, _, h⟩ := h
        cases h

/-- A program about to write the globals file is about to write the generated text. -/
theorem finishOps_writes {ω : Hash} {fuel : Nat} {cfg : CompileConfig} {schema : Schema} {w : World}
    {rootPath : Path} {agg : List Msg × List String} {q : Path} {c : String}
    {k : Option String → Ops (Option (List Msg))}
    (h : Reaches w (finishOps ω fuel cfg schema rootPath agg) (.write q c k)) :
    agg.2 ≠ [] ∧ compileGlobals ω fuel cfg.toTsConfig schema agg.2 = some (.ok c) := by
  unfold finishOps at h
  cases hE : agg.2.isEmpty with
  | true => rw [hE] at h; cases h.of_ret
  | false =>
    simp only [hE, Bool.false_eq_true, if_false] at h
    refine ⟨by intro e; simp [e] at hE, ?_⟩
    cases hc : compileGlobals ω fuel cfg.toTsConfig schema agg.2 with
    | none => rw [hc] at h; cases h.of_ret
    | some r =>
      rw [hc] at h
      cases r with
      | error e => cases h.of_ret
      | ok c' =>
        have := h.of_write
        injection this with h1 h2 h3
        rw [h2]

/-! ### Interrupted writes -/

theorem cut_zero (t : String) : cut t 0 = .ok "" := by
  unfold cut
  cases t.toList <;> rfl

theorem cutChars_all : ∀ (l : List Char) (n : Nat), (l.map Char.utf8Size).sum ≤ n → cutChars l n = .ok l
  | [], _, _ => rfl
  | c :: cs, n, h => by
    simp only [List.map_cons, List.sum_cons] at h
    have hpos : 0 < c.utf8Size := Char.utf8Size_pos c
    rw [cutChars, if_neg (by omega), if_neg (by omega), cutChars_all cs _ (by omega)]

theorem utf8ByteSize_ofList : ∀ l : List Char,
    (String.ofList l).utf8ByteSize = (l.map Char.utf8Size).sum
  | [] => by simp
  | c :: l => by
    rw [show String.ofList (c :: l) = String.ofList [c] ++ String.ofList l by
      rw [← String.ofList_append]; rfl, String.utf8ByteSize_append, utf8ByteSize_ofList l]
    simp

theorem cut_all {t : String} {n : Nat} (h : byteLength t ≤ n) : cut t n = .ok t := by
  unfold cut
  have e := utf8ByteSize_ofList t.toList
  rw [String.ofList_toList] at e
  rw [cutChars_all _ _ (by rw [← e]; exact h)]
  simp

/-- A program that reads files in `S` and then writes `out`, started on `w`, is on its way; `d` is what
`out` contains now. -/
inductive OnTrack {α : Type} (w : World) (out : Path) (P : Ops α) (d : Except String String) :
    Flight α → Prop where
  | before (o : Ops α) : Reaches w P o → d = w.disk (w.resolve out) → OnTrack w out P d (.ops o)
  | writing (c : String) (k : Option String → Ops α) (t : String) (n : Nat) :
      Reaches w P (.write out c k) → Leaves w (w.resolve out) c t → d = cut t n →
      OnTrack w out P d (.writing out t n (k (w.write out c).1))
  | after (c : String) (k : Option String → Ops α) : Reaches w P (.write out c k) →
      d = (w.write out c).2.disk (w.resolve out) → OnTrack w out P d (.ops (k (w.write out c).1))

/-- One system call keeps a program on its way. -/
theorem onTrack_step {α : Type} {w W : World} {S : Path → Prop} {out : Path} {P : Ops α}
    (hP : Well w S out P) (hres : W.resolve = w.resolve) (herr : W.writeErr = w.writeErr)
    (hread : ∀ q, S q → W.read q = w.read q) {f : Flight α}
    (T : OnTrack w out P (W.disk (w.resolve out)) f) (m : Nat) :
    (∃ f' W', f.step W m = .inl (f', W') ∧ W'.resolve = w.resolve ∧ W'.writeErr = w.writeErr ∧
      (∀ id, id ≠ w.resolve out → W'.disk id = W.disk id) ∧
      OnTrack w out P (W'.disk (w.resolve out)) f') ∨
    (∃ a, f.step W m = .inr a ∧ (P.run w).1 = a ∧
      W.disk (w.resolve out) = (P.run w).2.disk (w.resolve out)) := by
  cases T with
  | before o hR hd =>
    cases o with
    | ret a =>
      refine .inr ⟨a, rfl, ?_, ?_⟩
      · rw [← hR.run]; rfl
      · rw [← hR.run]; exact hd
    | read q k =>
      have hq : S q := by
        cases hR.well hP with
        | read _ _ h _ => exact h
      refine .inl ⟨_, W, rfl, hres, herr, fun _ _ => rfl, ?_⟩
      rw [hread q hq]
      exact .before _ (.read q k hR) hd
    | write q c k =>
      have hq : q = out := by
        cases hR.well hP with
        | write _ _ _ => rfl
      subst hq
      simp only [Flight.step, hres, herr]
      cases he : w.writeErr (w.resolve q) with
      | none =>
        have e1 : (w.write q c).1 = none := by simp [World.write, he]
        refine .inl ⟨_, _, rfl, hres, herr, fun id hid => by simp [World.set, hid], ?_⟩
        have := OnTrack.writing (d := cut c 0) c k c 0 hR (.inl ⟨he, rfl⟩) rfl
        rw [e1, cut_zero] at this
        simpa [World.set] using this
      | some el =>
        obtain ⟨e, l⟩ := el
        cases l with
        | none =>
          have e1 : w.write q c = (some e, w) := by simp [World.write, he]
          refine .inl ⟨_, W, rfl, hres, herr, fun _ _ => rfl, ?_⟩
          have := OnTrack.after (d := W.disk (w.resolve q)) c k hR (by rw [e1]; exact hd)
          rw [e1] at this
          exact this
        | some l =>
          have e1 : (w.write q c).1 = some e := by simp [World.write, he]
          refine .inl ⟨_, _, rfl, hres, herr, fun id hid => by simp [World.set, hid], ?_⟩
          have := OnTrack.writing (d := cut l 0) c k l 0 hR (.inr ⟨e, he⟩) rfl
          rw [e1, cut_zero] at this
          simpa [World.set] using this
  | writing c k t n hR hL hd =>
    simp only [Flight.step]
    by_cases hn : byteLength t ≤ n
    · rw [if_pos hn]
      refine .inl ⟨_, W, rfl, hres, herr, fun _ _ => rfl, .after c k hR ?_⟩
      rw [hd, cut_all hn]
      rcases hL with ⟨he, rfl⟩ | ⟨e, he⟩ <;> simp [World.write, he, World.put]
    · rw [if_neg hn, hres]
      refine .inl ⟨_, _, rfl, hres, herr, fun id hid => by simp [World.set, hid], ?_⟩
      exact .writing c k t (n + m) hR hL (by simp [World.set])
  | after c k hR hd =>
    obtain ⟨a, ha⟩ : ∃ a, k (w.write out c).1 = .ret a := by
      cases hR.well hP with
      | write _ _ h => exact h _
    have hrun : P.run w = (a, (w.write out c).2) := by
      rw [← hR.run]
      simp [Ops.run, ha]
    rw [ha]
    refine .inr ⟨a, rfl, ?_, ?_⟩
    · rw [hrun]
    · rw [hrun]; exact hd

end Qlc
