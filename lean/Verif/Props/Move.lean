import Verif.Spec.Move
import Verif.Props.Rename
import Verif.Props.Ordinary
/-
C117: moving a project, or the files in it, and organising its imports in another way.
-/
set_option autoImplicit false

namespace Qlc
open Spec

section
variable {ext : Ext} {schema : Schema} {cfg cfg' : CompileConfig} {w w' : World} {p p' : Path}

theorem scope_same (S : SameDocument ext cfg w p cfg' w' p') {c c' : String} {st st' : ImportSt}
    {fuel fuel' : Nat} (ω ω' : Hash) (hc : w.read p = .ok c) (hc' : w'.read p' = .ok c')
    (hu : ∀ f f', ImportedFragment ext w cfg p c f → ImportedFragment ext w cfg p c f' → f.name = f'.name → f = f')
    (hs : addImported w cfg fuel p c ⟨[], []⟩ = some (.done st))
    (hs' : addImported w' cfg' fuel' p' c' ⟨[], []⟩ = some (.done st')) :
    RenamedScope id (parseForeignFragments ω ext p st.imports st.messages).1
      (parseForeignFragments ω' ext p' st'.imports st'.messages).1 := by
  have I := inScope_foreign ext cfg w p ω hs hu
  obtain ⟨h1, h2, _⟩ := C39_scope_and_errors ω' ext p' st'.imports st'.messages
  obtain ⟨c1, c2, _, _⟩ := C35_import_closure w' cfg' fuel' p' c' st' hs'
  have fwd : ∀ n f, AMap.get? (parseForeignFragments ω' ext p' st'.imports st'.messages).1 n = some f →
      f.name = n ∧ ImportedFragment ext w' cfg' p' c' f := by
    intro n f hf
    obtain ⟨hn, ⟨q, c, loc⟩, he, hd⟩ := h1 n f hf
    exact ⟨hn, q, c, (c1 q).1 ⟨c, loc, he⟩, c2 q c loc he, hd⟩
  have bwd : ∀ f, ImportedFragment ext w' cfg' p' c' f →
      ∃ g, AMap.get? (parseForeignFragments ω' ext p' st'.imports st'.messages).1 f.name = some g := by
    rintro f ⟨q, c, hl, hr, hp⟩
    obtain ⟨c₂, loc, he⟩ := (c1 q).2 hl
    have e := c2 q c₂ loc he
    rw [hr] at e
    injection e with e
    subst e
    exact h2 _ he f hp
  revert I fwd bwd
  generalize (parseForeignFragments ω ext p st.imports st.messages).1 = F
  generalize (parseForeignFragments ω' ext p' st'.imports st'.messages).1 = F'
  intro I fwd bwd n
  show match AMap.get? F n, AMap.get? F' n with
    | none, none => True
    | some f, some f' => RenamedFragment id f f'
    | _, _ => False
  cases g : AMap.get? F n with
  | none =>
    cases g' : AMap.get? F' n with
    | none => trivial
    | some f' =>
      obtain ⟨hn, hi⟩ := fwd n f' g'
      obtain ⟨f, hf, hr⟩ := S.noNew c c' f' hc hc' hi
      have := (I n f).2 ⟨hr.name.symm.trans hn, hf⟩
      rw [g] at this
      cases this
  | some f =>
    obtain ⟨hn, hi⟩ := (I n f).1 g
    cases g' : AMap.get? F' n with
    | none =>
      obtain ⟨f', hf', hr⟩ := S.kept c c' f hc hc' hi
      obtain ⟨k, hk⟩ := bwd f' hf'
      rw [hr.name, id, hn, g'] at hk
      cases hk
    | some f' =>
      obtain ⟨hn', hi'⟩ := fwd n f' g'
      obtain ⟨f₂, hf₂, hr⟩ := S.noNew c c' f' hc hc' hi'
      have : f₂ = f := hu f₂ f hf₂ hi ((hr.name.symm.trans hn').trans hn.symm)
      subst this
      exact hr

theorem warning_level (c : String) (p : Path) (x : Warning) : (x.toMsg c p).level = .compileWarning := by
  cases x <;> rfl

/-- **C117, one document.** If the documents `p` and `p'` of two projects with the same settings are the same, the
first does not depend on hash orders and generates a text, and compiling the second ends, then the second generates
the same text and uses the same globals, whatever the hash orders. If the imports of the second are in order, it has
only warnings. -/
theorem C117_document (hcon : Consistent schema) (hh : HashProof ext schema w cfg p)
    (S : SameDocument ext cfg w p cfg' w' p')
    (hset : cfg'.toTsConfig = cfg.toTsConfig ∧ cfg'.showDeprecationWarnings = cfg.showDeprecationWarnings)
    {ω ω' : Hash} {fuel fuel' : Nat} {ms : List Msg} {c : Compile} {r : Except (List Msg) (List Msg × Compile)}
    (h : generateFile ω fuel ext cfg schema w p = some (.done (.ok (ms, c))))
    (h' : generateFile ω' fuel' ext cfg' schema w' p' = some (.done r)) :
    ∃ ms', r = .ok (ms', c) ∧ (ImportsInOrder ext cfg' w' p' → ∀ m ∈ ms', m.level = .compileWarning) := by
  obtain ⟨contents, d, st, op, ws, G, _⟩ := (generateFile_ok ω fuel ext cfg schema w p _ c).1 h
  obtain ⟨hu, hfr, hv⟩ := hh contents d G.readable G.parses
  obtain ⟨d', ⟨contents', hr', hp'⟩, hd, hn⟩ := S.definition d ⟨contents, G.readable, G.parses⟩
  unfold generateFile readGraphqlFile at h'
  simp only [hr', (parse_ok _ _ p' _).2 hp'] at h'
  cases hs : addImported w' cfg' fuel' p' contents' ⟨[], []⟩ with
  | none => simp [hs] at h'
  | some x =>
    cases x with
    | panic => simp [hs] at h'
    | done st' =>
      simp only [hs, hset.2] at h'
      have hsc := scope_same S ω ω' G.readable hr' hu G.scanned hs
      have s1 := inScope_foreign ext cfg w p ω G.scanned hu
      have hsim := compile_sim (schema := schema) ω' fuel' cfg.showDeprecationWarnings hd hsc
      cases hc : Operation.compile ω' fuel' ⟨schema, cfg.showDeprecationWarnings,
          (parseForeignFragments ω' ext p' st'.imports st'.messages).1⟩ d' with
      | none => simp [hc] at h'
      | some y =>
        obtain ⟨r', ws'⟩ := y
        cases hc₂ : Operation.compile ω' fuel' ⟨schema, cfg.showDeprecationWarnings,
            (parseForeignFragments ω ext p st.imports st.messages).1⟩ d with
        | none => rw [hc, hc₂] at hsim; exact absurd hsim id
        | some y₂ =>
          obtain ⟨r₂, ws₂⟩ := y₂
          rw [hc, hc₂] at hsim
          obtain ⟨rfl, hgen⟩ := compile_det schema ω ω' fuel fuel' cfg.showDeprecationWarnings cfg.toTsConfig
            (fun _ => rfl) hcon (hfr _ s1).1 d (hfr _ s1).2 hv G.valid hc₂
          have hres : SameButName id (dataName d) (dataName d') (.ok op) r' := hsim.1
          cases r' with
          | error es => exact absurd hres id
          | ok op' =>
            obtain ⟨n1, n2, o1, o2, o3⟩ := hres
            have : op' = op := by
              cases op; cases op'
              simp only at n1 n2 o1 o2 o3
              rw [n2, hn, n1, o1, o2, o3]
            subst this
            simp only [hc] at h'
            rw [hset.1, ← hgen, G.generated] at h'
            simp only [Option.some.injEq, PanicOr.done.injEq] at h'
            refine ⟨_, h'.symm, fun hi m hm => ?_⟩
            rcases List.mem_append.1 hm with hm | hm
            · obtain ⟨_, _, h3⟩ := C39_scope_and_errors ω' ext p' st'.imports st'.messages
              obtain ⟨c1, c2, _, c4⟩ := C35_import_closure w' cfg' fuel' p' contents' st' hs
              obtain ⟨i1, i2⟩ := hi contents' hr'
              rcases (h3 m).1 hm with hm | ⟨⟨q, t, loc⟩, he, d₂, hd₂, hf, _⟩
              · exact absurd ((c4 m).1 hm) (i1 m)
              · obtain ⟨f, rfl⟩ := i2 q t d₂ ((c1 q).1 ⟨t, loc, he⟩) (c2 q t loc he) hd₂
                cases hf
            · obtain ⟨x, _, rfl⟩ := List.mem_map.1 hm
              exact warning_level _ _ x

/-- A successful compilation of a file, and the compilation of the same document elsewhere. -/
theorem compileFile_same (hcon : Consistent schema) (hh : HashProof ext schema w cfg p)
    (S : SameDocument ext cfg w p cfg' w' p') (hi : ImportsInOrder ext cfg' w' p')
    (hset : cfg'.toTsConfig = cfg.toTsConfig ∧ cfg'.showDeprecationWarnings = cfg.showDeprecationWarnings)
    (hw : w'.writeErr (w'.resolve (outputPath p')) = none)
    {ω ω' : Hash} {fuel fuel' : Nat} {r r' : CompileResult} {rep : CompileReport}
    (h : compileFile ω fuel ext cfg schema w p = some (.done r)) (hrep : r.result = .ok rep)
    (h' : compileFile ω' fuel' ext cfg' schema w' p' = some (.done r')) :
    (∃ text, r.world.disk (w.resolve (outputPath p)) = .ok text ∧
        r'.world.disk (w'.resolve (outputPath p')) = .ok text) ∧
      ∃ rep', r'.result = .ok rep' ∧ rep'.globalTypesUsed = rep.globalTypesUsed ∧
        ∀ m ∈ rep'.messages, m.level = .compileWarning := by
  unfold compileFile at h h'
  cases g : generateFile ω fuel ext cfg schema w p with
  | none => simp [g] at h
  | some x =>
    cases x with
    | panic => simp [g] at h
    | done y =>
      cases y with
      | error es =>
        simp only [g, Option.some.injEq, PanicOr.done.injEq] at h
        subst h
        simp at hrep
      | ok a =>
        obtain ⟨ms, c⟩ := a
        cases g' : generateFile ω' fuel' ext cfg' schema w' p' with
        | none => simp [g'] at h'
        | some x' =>
          cases x' with
          | panic => simp [g'] at h'
          | done y' =>
            obtain ⟨ms', rfl, hl⟩ := C117_document hcon hh S hset g g'
            simp only [g] at h
            simp only [g'] at h'
            unfold World.write at h h'
            cases hw₁ : w.writeErr (w.resolve (outputPath p)) with
            | some e =>
              obtain ⟨e, left⟩ := e
              cases left <;>
              · simp only [hw₁, Option.some.injEq, PanicOr.done.injEq] at h
                subst h
                simp at hrep
            | none =>
              simp only [hw₁, Option.some.injEq, PanicOr.done.injEq] at h
              simp only [hw, Option.some.injEq, PanicOr.done.injEq] at h'
              subst h h'
              have hrep := Except.ok.inj hrep
              subst hrep
              exact ⟨⟨c.contents, by simp [World.put], by simp [World.put]⟩, _, rfl, rfl, hl hi⟩

end

section
variable {ext : Ext} {schema : Schema} {cfg cfg' : CompileConfig} {w w' : World} {root root' : Entry}
  {rootPath rootPath' : Path} {doc : JSchema} {φ : Path → Path}

/-- **C117.** Run the program with status 0 on a project, and run it on another project with the same settings and
schema whose documents are the same, wherever its files lie and however its imports are organised. The second run
ends with status 0 too, the generated file of each document is the same, the same globals are used, and the globals
file is the same if there are any. -/
theorem C117_reorganise_and_rerun {ω₁ ω₂ : Path → Hash} {ω₁' ω₂' : Hash} {fuel₁ fuel₂ threads₁ threads₂ : Nat}
    {s₁ s₂ : PoolSt World} {ms₁ ms₂ : List Msg} {w₁ w₂ : World} (paint : Paint)
    (hr : NoOutputRead w cfg root) (hd : OutputsDistinct w root) (hg : GlobalsApart w cfg rootPath root)
    (hr' : NoOutputRead w' cfg' root') (hd' : OutputsDistinct w' root') (hg' : GlobalsApart w' cfg' rootPath' root')
    (hv : ValidDoc doc) (hs : Schema.ofJson doc = .ok schema)
    (H : Reorganised ext cfg w root cfg' w' rootPath' root' φ)
    (hh : ∀ p, FoundIn root p → HashProof ext schema w cfg p)
    (R₁ : RunsTo ω₁ ω₁' fuel₁ ext cfg schema rootPath root threads₁ w s₁ ms₁ w₁)
    (R₂ : RunsTo ω₂ ω₂' fuel₂ ext cfg' schema rootPath' root' threads₂ w' s₂ ms₂ w₂)
    (h0 : (printExitInfo paint ms₁).code = 0) :
    (printExitInfo paint ms₂).code = 0 ∧
    (∀ p, FoundIn root p → ∃ text, w₁.disk (w.resolve (outputPath p)) = .ok text ∧
      w₂.disk (w'.resolve (outputPath (φ p))) = .ok text) ∧
    (∀ g, UsedGlobal ω₂ fuel₂ ext cfg' schema w' root' g ↔ UsedGlobal ω₁ fuel₁ ext cfg schema w root g) ∧
    ((∃ g, UsedGlobal ω₁ fuel₁ ext cfg schema w root g) → ∃ text,
      w₁.disk (globalsId w cfg rootPath) = .ok text ∧ w₂.disk (globalsId w' cfg' rootPath') = .ok text) := by
  have A := after_run hr hd hg R₁
  have B := after_run hr' hd' hg' R₂
  have F := (C74_exit_status hr hd hg R₁ paint).1 h0
  have hcon := loaded_consistent hv hs
  have file : ∀ p, FoundIn root p →
      (∃ text, w₁.disk (w.resolve (outputPath p)) = .ok text ∧
        w₂.disk (w'.resolve (outputPath (φ p))) = .ok text) ∧
      globalsOfFile ω₂ fuel₂ ext cfg' schema w' (φ p) = globalsOfFile ω₁ fuel₁ ext cfg schema w p ∧
      ∃ ms gs, CompilesWith ω₂ fuel₂ ext cfg' schema w' (φ p) ms gs ∧ ∀ m ∈ ms, m.level = .compileWarning := by
    intro p hp
    obtain ⟨msgs, gs, ⟨r, hc, hres⟩, hlev⟩ := F.files p hp
    have hok : ∃ rep, r.result = .ok rep ∧ msgs = rep.messages := by
      rcases hres with ⟨rep, h, hm, _⟩ | ⟨h, _⟩
      · exact ⟨rep, h, hm⟩
      · obtain ⟨m, hm, hl⟩ := failed_has_error hc h
        exact absurd (hlev m hm) hl
    obtain ⟨rep, hrep, rfl⟩ := hok
    have hp' := H.found p hp
    obtain ⟨gs', msgs', e⟩ := B.returned (φ p) hp'
    obtain ⟨r', hc', _⟩ := compilesWith_of_done e
    obtain ⟨⟨text, t1, t2⟩, rep', hrep', hgl, hl⟩ :=
      compileFile_same hcon (hh p hp) (H.same p hp) (H.imports _ hp') H.settings (H.outputs _ hp') hc hrep hc'
    have e1 : poolCompile ω₁ fuel₁ ext cfg schema w p = (.done rep.globalTypesUsed rep.messages, r.world) := by
      simp [poolCompile, hc, hrep]
    have e2 : poolCompile ω₂ fuel₂ ext cfg' schema w' (φ p) = (.done rep'.globalTypesUsed rep'.messages, r'.world) := by
      simp [poolCompile, hc', hrep']
    have a1 := A.outputs p hp
    have b1 := B.outputs (φ p) hp'
    rw [e1] at a1
    rw [e2] at b1
    exact ⟨⟨text, a1.trans t1, b1.trans t2⟩,
      by unfold globalsOfFile; rw [e1, e2]; exact hgl, rep'.messages, rep'.globalTypesUsed,
      ⟨r', hc', .inl ⟨rep', hrep', rfl, rfl⟩⟩, hl⟩
  have hused : ∀ g, UsedGlobal ω₂ fuel₂ ext cfg' schema w' root' g ↔
      UsedGlobal ω₁ fuel₁ ext cfg schema w root g := by
    intro g
    rw [← usedGlobal_iff A, ← usedGlobal_iff B, A.used, B.used]
    constructor
    · rintro ⟨p', hp', hg⟩
      obtain ⟨p, hp, rfl⟩ := H.noOthers p' hp'
      exact ⟨p, hp, (file p hp).2.1 ▸ hg⟩
    · rintro ⟨p, hp, hg⟩
      exact ⟨φ p, H.found p hp, (file p hp).2.1 ▸ hg⟩
  have h0' : (printExitInfo paint ms₂).code = 0 := by
    refine (C74_exit_status hr' hd' hg' R₂ paint).2 ⟨H.directories, fun p' hp' => ?_, ?_, fun _ => H.globals⟩
    · obtain ⟨p, hp, rfl⟩ := H.noOthers p' hp'
      exact (file p hp).2.2
    · intro used hu
      exact F.globals used (fun g => by rw [hu, hused])
  refine ⟨h0', fun p hp => (file p hp).1, hused, ?_⟩
  rintro ⟨g₀, hg₀⟩
  have hu : ∀ n, n ∈ s₁.aggregate.2 ↔ n ∈ s₂.aggregate.2 := fun n => by
    rw [usedGlobal_iff A, usedGlobal_iff B, hused]
  have hno : ∀ {s : PoolSt World} {ms : List Msg} {e : TsError}, (printExitInfo paint ms).code = 0 →
      ms = s.aggregate.1 ++ [e.toMsg] → False := by
    intro s ms e h hm
    exact tsError_level e ((C43_exit_zero_iff_no_error paint ms).1.1 h e.toMsg (by rw [hm]; simp))
  have hmem := (usedGlobal_iff A g₀).2 hg₀
  rcases A.globals with ⟨hn, _⟩ | ⟨_, r, hc, ⟨e, rfl, hm, _⟩ | ⟨text, rfl, ha, _⟩⟩
  · rw [hn] at hmem
    simp at hmem
  · exact absurd (hno h0 hm) id
  · rcases B.globals with ⟨hn', _⟩ | ⟨_, r', hc', ⟨e, rfl, hm, _⟩ | ⟨text', rfl, hb, _⟩⟩
    · rw [hu, hn'] at hmem
      simp at hmem
    · exact absurd (hno h0' hm) id
    · rw [H.settings.1] at hc'
      have ht : text' = text :=
        compileGlobals_same (ofJson_inputFieldsOnce hs) _ _ _ _ _ hu (fun _ _ => rfl) hc hc'
      subst ht
      refine ⟨text', ?_, ?_⟩
      · rw [ha]
        have hwe := F.written ⟨g₀, hg₀⟩
        unfold globalsId at hwe ⊢
        unfold World.write
        rw [hwe]
        simp [World.put]
      · rw [hb]
        have hwe := H.globals
        unfold globalsId at hwe ⊢
        unfold World.write
        rw [hwe]
        simp [World.put]

end

/-! ### Moving the root directory -/

theorem below_inj {r : Path} {a b : List String} (h : below r a = below r b) : a = b := by
  unfold below at h
  injection h with _ h
  exact List.append_cancel_left h

theorem below_pop {r : Path} {a : List String} (h : a ≠ []) : (below r a).pop = below r a.dropLast := by
  unfold below Path.pop
  simp only
  rw [List.dropLast_append_of_ne_nil h]

theorem join_below {r : Path} (hr : ProperRoot r) (a : List String) {b : Path} (hb : b.abs = false) :
    (below r a).join b = below r (a ++ (if b.comps.head? = some "." then b.comps.tail else b.comps)) := by
  unfold Path.join
  have : (below r a).abs || !(below r a).comps.isEmpty := by
    unfold below
    rcases hr with h | h
    · simp [h]
    · cases hc : r.comps with
      | nil => exact absurd hc h
      | cons x xs => simp
  rw [hb, if_neg (by simp), if_pos this]
  simp [below, List.append_assoc]

theorem resolveImport_below {cfg cfg' : CompileConfig} (hset : cfg'.rootDirImportPrefix = cfg.rootDirImportPrefix)
    (h1 : ProperRoot cfg.rootDir) (h2 : ProperRoot cfg'.rootDir) {t : List Char}
    (ht : (afterPrefix cfg t).head? ≠ some '/') (a : List String) :
    ∃ b, resolveImport cfg t (below cfg.rootDir a) = below cfg.rootDir b ∧
      resolveImport cfg' t (below cfg'.rootDir a) = below cfg'.rootDir b := by
  have root : ∀ r : Path, below r [] = r := fun r => by simp [below]
  unfold resolveImport
  unfold afterPrefix at ht
  rw [hset]
  cases hp : cfg.rootDirImportPrefix.bind (fun pre => stripPrefixC pre.toList t) with
  | some rest =>
    rw [hp] at ht
    have hb : (Path.ofChars rest).abs = false := by rw [ofChars_abs]; simpa using ht
    have e1 := join_below h1 [] hb
    have e2 := join_below h2 [] hb
    rw [root] at e1 e2
    exact ⟨_, e1, e2⟩
  | none =>
    rw [hp] at ht
    have hb : (Path.ofChars t).abs = false := by rw [ofChars_abs]; simpa using ht
    simp only
    by_cases hdot : t.head? = some '.'
    · rw [if_pos hdot, if_pos hdot]
      exact ⟨_, join_below h1 a hb, join_below h2 a hb⟩
    · rw [if_neg hdot, if_neg hdot]
      have e1 := join_below h1 [] hb
      have e2 := join_below h2 [] hb
      rw [root] at e1 e2
      exact ⟨_, e1, e2⟩

section
variable {ext : Ext} {schema : Schema} {cfg cfg' : CompileConfig} {w w' : World} {root root' : Entry}
  {rootPath rootPath' : Path} {doc : JSchema}

theorem moved_prefix (M : RootMoved cfg w root cfg' w' root') :
    cfg'.rootDirImportPrefix = cfg.rootDirImportPrefix := by rw [M.settings]

theorem afterPrefix_moved (M : RootMoved cfg w root cfg' w' root') (t : List Char) :
    afterPrefix cfg' t = afterPrefix cfg t := by
  unfold afterPrefix
  rw [moved_prefix M]

/-- An import of a file that is read leads to the same place below the new root. -/
theorem imports_moved (M : RootMoved cfg w root cfg' w' root') {p : Path} (hp : FoundIn root p) {a : List String}
    (hR : Spec.Reads w cfg p (below cfg.rootDir a)) {c : String} (hc : w.read (below cfg.rootDir a) = .ok c)
    {il : ImportLine} (hil : il ∈ importsOf c) {t : List Char} (ht : importPathText il.after = some t) :
    ∃ b, Imports cfg (below cfg.rootDir a) c il (below cfg.rootDir b) ∧
      Imports cfg' (below cfg'.rootDir a) c il (below cfg'.rootDir b) := by
  obtain ⟨hne, _⟩ := M.files p a hp hR
  obtain ⟨b, e1, e2⟩ := resolveImport_below (moved_prefix M) M.roots.1 M.roots.2
    (M.relative p hp _ c il t hR hc hil ht) a.dropLast
  refine ⟨b, ⟨hil, ?_⟩, ⟨hil, ?_⟩⟩
  · unfold getFilePathOfFragment
    rw [ht, below_pop hne, ← e1]
    rfl
  · unfold getFilePathOfFragment
    rw [ht, below_pop hne, ← e2]
    rfl

theorem imports_text {file : Path} {c : String} {il : ImportLine} {q : Path} (h : Imports cfg file c il q) :
    ∃ t, importPathText il.after = some t := by
  have h := h.2
  unfold getFilePathOfFragment at h
  cases ht : importPathText il.after with
  | none => rw [ht] at h; cases h
  | some t => exact ⟨t, rfl⟩

theorem imports_unique {file : Path} {c : String} {il : ImportLine} {q q' : Path} (h : Imports cfg file c il q)
    (h' : Imports cfg file c il q') : q = q' := by
  have e := h.2.symm.trans h'.2
  injection e

theorem reads_moved (M : RootMoved cfg w root cfg' w' root') {a : List String}
    (hp : FoundIn root (below cfg.rootDir a)) {q : Path} (h : Spec.Reads w cfg (below cfg.rootDir a) q) :
    ∃ b, q = below cfg.rootDir b ∧ Spec.Reads w' cfg' (below cfg'.rootDir a) (below cfg'.rootDir b) := by
  induction h with
  | self => exact ⟨a, rfl, .self⟩
  | @imported q c il x hq hc hi ih =>
    obtain ⟨b, rfl, hb⟩ := ih
    obtain ⟨t, ht⟩ := imports_text hi
    obtain ⟨b', i1, i2⟩ := imports_moved M hp hq hc hi.1 ht
    exact ⟨b', imports_unique hi i1, .imported hb ((M.files _ b hp hq).2.trans hc) i2⟩

theorem reads_moved_back (M : RootMoved cfg w root cfg' w' root') {a : List String}
    (hp : FoundIn root (below cfg.rootDir a)) {q' : Path} (h : Spec.Reads w' cfg' (below cfg'.rootDir a) q') :
    ∃ b, q' = below cfg'.rootDir b ∧ Spec.Reads w cfg (below cfg.rootDir a) (below cfg.rootDir b) := by
  induction h with
  | self => exact ⟨a, rfl, .self⟩
  | @imported q c il x hq hc hi ih =>
    obtain ⟨b, rfl, hb⟩ := ih
    obtain ⟨t, ht⟩ := imports_text hi
    have hc' := (M.files _ b hp hb).2.symm.trans hc
    obtain ⟨b', i1, i2⟩ := imports_moved M hp hb hc' hi.1 ht
    exact ⟨b', imports_unique hi i2, .imported hb hc' i1⟩

/-- A project can be moved back. -/
theorem moved_back (M : RootMoved cfg w root cfg' w' root') : RootMoved cfg' w' root' cfg w root where
  settings := by
    have := M.settings
    cases cfg; cases cfg'
    simp only [CompileConfig.mk.injEq] at this ⊢
    exact ⟨this.1.symm, trivial, this.2.2.1.symm, this.2.2.2.symm⟩
  roots := M.roots.symm
  inside := M.inside'
  inside' := M.inside
  documents := fun rest => (M.documents rest).symm
  files := by
    intro p rest hp hR
    obtain ⟨a, rfl⟩ := M.inside' p hp
    have hp := (M.documents a).2 hp
    obtain ⟨b, e, hb⟩ := reads_moved_back M hp hR
    obtain rfl := below_inj e
    obtain ⟨h1, h2⟩ := M.files _ _ hp hb
    exact ⟨h1, h2.symm⟩
  relative := by
    intro p hp q c il t hq hc hil ht
    obtain ⟨a, rfl⟩ := M.inside' p hp
    have hp := (M.documents a).2 hp
    obtain ⟨b, rfl, hb⟩ := reads_moved_back M hp hq
    rw [afterPrefix_moved M]
    exact M.relative _ hp _ c il t hb ((M.files _ _ hp hb).2.symm.trans hc) hil ht

theorem loads_moved (M : RootMoved cfg w root cfg' w' root') {p : Path} (hp : FoundIn root p) {f : Path} {c : String}
    {q : Path} (h : Loads w cfg f c q) : ∀ a, f = below cfg.rootDir a → Spec.Reads w cfg p f → w.read f = .ok c →
    ∃ b, q = below cfg.rootDir b ∧ w'.read (below cfg'.rootDir b) = w.read q ∧
      Loads w' cfg' (below cfg'.rootDir a) c (below cfg'.rootDir b) := by
  induction h with
  | @direct file contents il q t hi ht =>
    rintro a rfl hR hc
    obtain ⟨txt, htx⟩ := imports_text hi
    obtain ⟨b, i1, i2⟩ := imports_moved M hp hR hc hi.1 htx
    obtain rfl := imports_unique hi i1
    have e := (M.files p b hp (.imported hR hc hi)).2
    exact ⟨b, rfl, e, .direct i2 (e.trans ht)⟩
  | @trans file contents il x t q hi ht _ ih =>
    rintro a rfl hR hc
    obtain ⟨txt, htx⟩ := imports_text hi
    obtain ⟨b, i1, i2⟩ := imports_moved M hp hR hc hi.1 htx
    obtain rfl := imports_unique hi i1
    have e := (M.files p b hp (.imported hR hc hi)).2
    obtain ⟨b', rfl, e', hl⟩ := ih b rfl (.imported hR hc hi) ht
    exact ⟨b', rfl, e', .trans i2 (e.trans ht) hl⟩

theorem importErr_moved (M : RootMoved cfg w root cfg' w' root') {p : Path} (hp : FoundIn root p) {f : Path}
    {c : String} {m : Msg} (h : ImportErr w cfg f c m) : ∀ a, f = below cfg.rootDir a → Spec.Reads w cfg p f →
    w.read f = .ok c → ∃ m', ImportErr w' cfg' (below cfg'.rootDir a) c m' := by
  induction h with
  | @here file contents il q t hi ht =>
    rintro a rfl hR hc
    obtain ⟨txt, htx⟩ := imports_text hi
    obtain ⟨b, i1, i2⟩ := imports_moved M hp hR hc hi.1 htx
    obtain rfl := imports_unique hi i1
    have e := (M.files p b hp (.imported hR hc hi)).2
    exact ⟨_, .here i2 (e.trans ht)⟩
  | @there file contents il x t q hi ht _ ih =>
    rintro a rfl hR hc
    obtain ⟨txt, htx⟩ := imports_text hi
    obtain ⟨b, i1, i2⟩ := imports_moved M hp hR hc hi.1 htx
    obtain rfl := imports_unique hi i1
    have e := (M.files p b hp (.imported hR hc hi)).2
    obtain ⟨m', hl⟩ := ih b rfl (.imported hR hc hi) ht
    exact ⟨m', .there i2 (e.trans ht) hl⟩

mutual
theorem renamedSel_id : ∀ s, RenamedSel id s s
  | .field _ _ _ _ _ items => .field (renamedSels_id items)
  | .inline _ _ _ items => .inline (renamedSels_id items)
  | .spread _ _ _ => .spread
theorem renamedSels_id : ∀ l, RenamedSels id l l
  | [] => .nil
  | s :: rest => .cons (renamedSel_id s) (renamedSels_id rest)
end

theorem renamedFragment_id (f : FragmentDef) : RenamedFragment id f f := ⟨rfl, rfl, renamedSels_id _⟩

theorem sameDefinition_refl : ∀ d, SameDefinition d d
  | .selectionSet _ items => ⟨.selectionSet (renamedSels_id items), rfl⟩
  | .operation _ _ _ _ _ items => ⟨.operation rfl (renamedSels_id items), rfl⟩
  | .fragment f => ⟨.fragment (renamedFragment_id f), rfl⟩

theorem importedFragment_moved (M : RootMoved cfg w root cfg' w' root') {a : List String}
    (hp : FoundIn root (below cfg.rootDir a)) {c : String} (hc : w.read (below cfg.rootDir a) = .ok c)
    {f : FragmentDef} (h : ImportedFragment ext w cfg (below cfg.rootDir a) c f) :
    ImportedFragment ext w' cfg' (below cfg'.rootDir a) c f := by
  obtain ⟨q, t, hl, hr, hd⟩ := h
  obtain ⟨b, rfl, e, hl'⟩ := loads_moved M hp hl a rfl .self hc
  exact ⟨_, t, hl', e.trans hr, hd⟩

/-- A document is the same document after the move. -/
theorem sameDocument_moved (M : RootMoved cfg w root cfg' w' root') {a : List String}
    (hp : FoundIn root (below cfg.rootDir a)) :
    SameDocument ext cfg w (below cfg.rootDir a) cfg' w' (below cfg'.rootDir a) := by
  have e := (M.files _ a hp .self).2
  refine ⟨?_, ?_, ?_⟩
  · rintro d ⟨c, hc, hd⟩
    exact ⟨d, ⟨c, e.trans hc, hd⟩, sameDefinition_refl d⟩
  · intro c c' f hc hc' hf
    rw [e, hc] at hc'
    injection hc' with hc'
    subst hc'
    exact ⟨f, importedFragment_moved M hp hc hf, renamedFragment_id f⟩
  · intro c c' f hc hc' hf
    have hcc := hc'
    rw [e, hc] at hc'
    injection hc' with hc'
    subst hc'
    exact ⟨f, importedFragment_moved (moved_back M) ((M.documents a).1 hp) hcc hf, renamedFragment_id f⟩

theorem importsInOrder_moved (M : RootMoved cfg w root cfg' w' root') {a : List String}
    (hp : FoundIn root (below cfg.rootDir a)) (h : ImportsInOrder ext cfg w (below cfg.rootDir a)) :
    ImportsInOrder ext cfg' w' (below cfg'.rootDir a) := by
  intro c hc
  have e := (M.files _ a hp .self).2
  have hp' := (M.documents a).1 hp
  obtain ⟨h1, h2⟩ := h c (e.symm.trans hc)
  refine ⟨fun m hm => ?_, fun q t d hl hr hd => ?_⟩
  · obtain ⟨m', hm'⟩ := importErr_moved (moved_back M) hp' hm a rfl .self hc
    exact h1 m' hm'
  · obtain ⟨b, rfl, e', hl'⟩ := loads_moved (moved_back M) hp' hl a rfl .self hc
    exact h2 _ t d hl' (e'.trans hr) hd

end

theorem importErr_level {w : World} {cfg : CompileConfig} {f : Path} {c : String} {m : Msg}
    (h : ImportErr w cfg f c m) : m.level = .compileError := by
  induction h with
  | here _ _ => rfl
  | there _ _ _ ih => exact ih

/-- If a file is compiled with warnings only, its imports are in order. -/
theorem importsInOrder_of_warnings {ext : Ext} {schema : Schema} {cfg : CompileConfig} {w : World} {p : Path}
    {ω : Hash} {fuel : Nat} {r : CompileResult} {rep : CompileReport}
    (h : compileFile ω fuel ext cfg schema w p = some (.done r)) (hrep : r.result = .ok rep)
    (hlev : ∀ m ∈ rep.messages, m.level = .compileWarning) : ImportsInOrder ext cfg w p := by
  unfold compileFile at h
  cases g : generateFile ω fuel ext cfg schema w p with
  | none => simp [g] at h
  | some x =>
    cases x with
    | panic => simp [g] at h
    | done y =>
      cases y with
      | error es =>
        simp only [g, Option.some.injEq, PanicOr.done.injEq] at h
        subst h
        simp at hrep
      | ok a =>
        obtain ⟨ms, c⟩ := a
        obtain ⟨contents, d, st, op, ws, G, hms⟩ := (generateFile_ok ω fuel ext cfg schema w p _ c).1 g
        have hl : ∀ m ∈ ms, m.level = .compileWarning := by
          simp only [g] at h
          unfold World.write at h
          cases hw₁ : w.writeErr (w.resolve (outputPath p)) with
          | some e =>
            obtain ⟨e, left⟩ := e
            cases left <;>
            · simp only [hw₁, Option.some.injEq, PanicOr.done.injEq] at h
              subst h
              simp at hrep
          | none =>
            simp only [hw₁, Option.some.injEq, PanicOr.done.injEq] at h
            subst h
            have hrep := Except.ok.inj hrep
            subst hrep
            exact hlev
        intro c' hc'
        rw [G.readable] at hc'
        injection hc' with hc'
        subst hc'
        obtain ⟨_, _, h3⟩ := C39_scope_and_errors ω ext p st.imports st.messages
        obtain ⟨c1, c2, _, c4⟩ := C35_import_closure w cfg fuel p contents st G.scanned
        refine ⟨fun m hm => ?_, fun q t d hq ht hd => ?_⟩
        · have := hl m (by rw [hms]; exact List.mem_append_left _ ((h3 m).2 (.inl ((c4 m).2 hm))))
          rw [importErr_level hm] at this
          cases this
        · cases d with
          | fragment f => exact ⟨f, rfl⟩
          | selectionSet pos items =>
            obtain ⟨t', loc, he⟩ := (c1 q).2 hq
            have e := c2 q t' loc he
            rw [ht] at e
            injection e with e
            subst e
            have := hl _ (by rw [hms]; exact List.mem_append_left _ ((h3 _).2 (.inr ⟨_, he, _, hd, rfl, rfl⟩)))
            cases this
          | operation _ _ _ _ _ _ =>
            obtain ⟨t', loc, he⟩ := (c1 q).2 hq
            have e := c2 q t' loc he
            rw [ht] at e
            injection e with e
            subst e
            have := hl _ (by rw [hms]; exact List.mem_append_left _ ((h3 _).2 (.inr ⟨_, he, _, hd, rfl, rfl⟩)))
            cases this

section
variable {ext : Ext} {schema : Schema} {cfg cfg' : CompileConfig} {w w' : World} {root root' : Entry}
  {rootPath rootPath' : Path} {doc : JSchema}

/-- **C117.** Run the program with status 0 on a project without absolute imports, copy the project to another
directory, and run it there, where directories can be listed and outputs written: the second run ends with status 0
too, and generates the same files below the new root, the globals file included. -/
theorem C117_move_and_rerun {ω₁ ω₂ : Path → Hash} {ω₁' ω₂' : Hash} {fuel₁ fuel₂ threads₁ threads₂ : Nat}
    {s₁ s₂ : PoolSt World} {ms₁ ms₂ : List Msg} {w₁ w₂ : World} (paint : Paint)
    (hr : NoOutputRead w cfg root) (hd : OutputsDistinct w root) (hg : GlobalsApart w cfg rootPath root)
    (hr' : NoOutputRead w' cfg' root') (hd' : OutputsDistinct w' root') (hg' : GlobalsApart w' cfg' rootPath' root')
    (hv : ValidDoc doc) (hs : Schema.ofJson doc = .ok schema)
    (M : RootMoved cfg w root cfg' w' root') (hdir : dirErrors root' = [])
    (hout : ∀ p', FoundIn root' p' → w'.writeErr (w'.resolve (outputPath p')) = none)
    (hgl : w'.writeErr (globalsId w' cfg' rootPath') = none)
    (hh : ∀ p, FoundIn root p → HashProof ext schema w cfg p)
    (R₁ : RunsTo ω₁ ω₁' fuel₁ ext cfg schema rootPath root threads₁ w s₁ ms₁ w₁)
    (R₂ : RunsTo ω₂ ω₂' fuel₂ ext cfg' schema rootPath' root' threads₂ w' s₂ ms₂ w₂)
    (h0 : (printExitInfo paint ms₁).code = 0) :
    (printExitInfo paint ms₂).code = 0 ∧
    (∀ rest, FoundIn root (below cfg.rootDir rest) → ∃ text,
      w₁.disk (w.resolve (outputPath (below cfg.rootDir rest))) = .ok text ∧
      w₂.disk (w'.resolve (outputPath (below cfg'.rootDir rest))) = .ok text) ∧
    ((∃ g, UsedGlobal ω₁ fuel₁ ext cfg schema w root g) → ∃ text,
      w₁.disk (globalsId w cfg rootPath) = .ok text ∧ w₂.disk (globalsId w' cfg' rootPath') = .ok text) := by
  have F := (C74_exit_status hr hd hg R₁ paint).1 h0
  have key : ∀ a, below cfg'.rootDir ((below cfg.rootDir a).comps.drop cfg.rootDir.comps.length) =
      below cfg'.rootDir a := by
    intro a; simp [below]
  have H : Reorganised ext cfg w root cfg' w' rootPath' root'
      (fun p => below cfg'.rootDir (p.comps.drop cfg.rootDir.comps.length)) := by
    refine ⟨?_, ?_, ?_, ?_, ?_, hdir, hout, hgl⟩
    · rw [M.settings]; exact ⟨rfl, rfl⟩
    · intro p hp
      obtain ⟨a, rfl⟩ := M.inside p hp
      simp only [key]
      exact (M.documents a).1 hp
    · intro p' hp'
      obtain ⟨a, rfl⟩ := M.inside' p' hp'
      exact ⟨below cfg.rootDir a, (M.documents a).2 hp', key a⟩
    · intro p hp
      obtain ⟨a, rfl⟩ := M.inside p hp
      simp only [key]
      exact sameDocument_moved M hp
    · intro p' hp'
      obtain ⟨a, rfl⟩ := M.inside' p' hp'
      have hp := (M.documents a).2 hp'
      obtain ⟨msgs, gs, ⟨r, hc, hres⟩, hlev⟩ := F.files _ hp
      rcases hres with ⟨rep, h, rfl, _⟩ | ⟨h, _⟩
      · exact importsInOrder_moved M hp (importsInOrder_of_warnings hc h hlev)
      · obtain ⟨m, hm, hl⟩ := failed_has_error hc h
        exact absurd (hlev m hm) hl
  obtain ⟨c0, c1, _, c3⟩ := C117_reorganise_and_rerun paint hr hd hg hr' hd' hg' hv hs H hh R₁ R₂ h0
  refine ⟨c0, fun rest hp => ?_, c3⟩
  have := c1 _ hp
  simp only [key] at this
  exact this

end

/-! ### Examples -/

/-- The settings after the move to `/srv/app`. -/
def Demo.movedCfg : CompileConfig := { Demo.cfg with rootDir := ⟨true, ["srv", "app"]⟩ }

/-- The files after the move. -/
def Demo.movedWorld : World where
  resolve := Path.display
  disk := fun id =>
    if id = "/srv/app/q.graphql" then .ok Demo.runText
    else if id = "/srv/app/f.graphql" then .ok "fragment F"
    else .error "missing"
  writeErr := fun _ => none

/-- The tree after the move, listed in another order. -/
def Demo.movedTree : Entry :=
  .dir ⟨true, ["srv", "app"]⟩ [.file ⟨true, ["srv", "app", "f.graphql"]⟩, .file ⟨true, ["srv", "app", "q.graphql"]⟩]

theorem moved_found {p : Path} (h : FoundIn Demo.movedTree p) :
    p = ⟨true, ["srv", "app", "q.graphql"]⟩ ∨ p = ⟨true, ["srv", "app", "f.graphql"]⟩ := by
  have : p ∈ filesOf Demo.movedTree := (mem_filesOf _ p).2 h
  have e : filesOf Demo.movedTree = [⟨true, ["srv", "app", "f.graphql"]⟩, ⟨true, ["srv", "app", "q.graphql"]⟩] := by
    decide +kernel
  rw [e] at this
  simp only [List.mem_cons, List.not_mem_nil, or_false] at this
  exact this.symm

theorem run_below {b : List String} (h : below Demo.cfg.rootDir b = Demo.qPath ∨ below Demo.cfg.rootDir b = Demo.fPath) :
    b = ["q.graphql"] ∨ b = ["f.graphql"] := by
  have e1 : Demo.qPath = below Demo.cfg.rootDir ["q.graphql"] := rfl
  have e2 : Demo.fPath = below Demo.cfg.rootDir ["f.graphql"] := rfl
  rw [e1, e2] at h
  exact h.imp below_inj below_inj

theorem demo_moved : RootMoved Demo.cfg Demo.runWorld Demo.fileTree Demo.movedCfg Demo.movedWorld Demo.movedTree := by
  have e1 : Demo.qPath = below Demo.cfg.rootDir ["q.graphql"] := rfl
  have e2 : Demo.fPath = below Demo.cfg.rootDir ["f.graphql"] := rfl
  have e3 : (⟨true, ["srv", "app", "q.graphql"]⟩ : Path) = below Demo.movedCfg.rootDir ["q.graphql"] := rfl
  have e4 : (⟨true, ["srv", "app", "f.graphql"]⟩ : Path) = below Demo.movedCfg.rootDir ["f.graphql"] := rfl
  refine ⟨rfl, ⟨.inl rfl, .inl rfl⟩, ?_, ?_, ?_, ?_, ?_⟩
  · intro p hp
    rcases demo_found hp with rfl | rfl
    · exact ⟨_, e1⟩
    · exact ⟨_, e2⟩
  · intro p hp
    rcases moved_found hp with rfl | rfl
    · exact ⟨_, e3⟩
    · exact ⟨_, e4⟩
  · intro b
    constructor
    · intro h
      rcases run_below (demo_found h) with rfl | rfl <;> exact (mem_filesOf _ _).1 (by decide +kernel)
    · intro h
      have h := moved_found h
      rw [e3, e4] at h
      rcases h.imp below_inj below_inj with rfl | rfl <;> exact (mem_filesOf _ _).1 (by decide +kernel)
  · intro p b hp hR
    rcases run_below (full_reads (demo_found hp) hR) with rfl | rfl
    · exact ⟨by simp, rfl⟩
    · exact ⟨by simp, rfl⟩
  · intro p hp q c il t hR hc hil ht
    rcases ren_texts hc with rfl | rfl
    · have hall : ∀ il ∈ importsOf Demo.runText,
          ((importPathText il.after).map (fun t => decide ((afterPrefix Demo.cfg t).head? = some '/'))) = some false := by
        decide +kernel
      have := hall il hil
      rw [ht] at this
      simpa using this
    · have h0 : (importsOf "fragment F").length = 0 := by decide +kernel
      rw [List.length_eq_zero_iff.1 h0] at hil
      cases hil

theorem moved_reads {p q : Path} (hp : FoundIn Demo.movedTree p) (h : Spec.Reads Demo.movedWorld Demo.movedCfg p q) :
    q = ⟨true, ["srv", "app", "q.graphql"]⟩ ∨ q = ⟨true, ["srv", "app", "f.graphql"]⟩ := by
  obtain ⟨a, rfl⟩ := demo_moved.inside' p hp
  have hp' := (demo_moved.documents a).2 hp
  obtain ⟨b, rfl, hb⟩ := reads_moved_back demo_moved hp' h
  rcases run_below (full_reads (demo_found hp') hb) with rfl | rfl
  · exact .inl rfl
  · exact .inr rfl

/-- The moved project is ordinary. -/
theorem moved_ordinary : Ordinary [] Demo.movedWorld Demo.movedCfg ⟨true, ["srv", "app"]⟩ Demo.movedTree := by
  refine ⟨⟨_, rfl, ?_⟩, ?_, ⟨"globals.ts", by decide +kernel, ?_⟩, ?_⟩
  · intro e he
    have hq : ProperName "q.graphql" := by constructor <;> decide
    have hf : ProperName "f.graphql" := by constructor <;> decide
    rcases List.mem_cons.1 he with rfl | he
    · exact Listed.file (d := ⟨true, ["srv", "app"]⟩) hf
    · rcases List.mem_cons.1 he with rfl | he
      · exact Listed.file (d := ⟨true, ["srv", "app"]⟩) hq
      · cases he
  · intro p q hp hq
    rcases moved_reads hp hq with rfl | rfl <;> decide +kernel
  · exact noDot_ts (n := "globals") (by decide)
  · have hall : ∀ p, Touched Demo.movedWorld Demo.movedCfg ⟨true, ["srv", "app"]⟩ Demo.movedTree p →
        p ∈ [⟨true, ["srv", "app", "q.graphql"]⟩, ⟨true, ["srv", "app", "f.graphql"]⟩,
          outputPath ⟨true, ["srv", "app", "q.graphql"]⟩, outputPath ⟨true, ["srv", "app", "f.graphql"]⟩,
          ⟨true, ["srv", "app", "globals.ts"]⟩] := by
      intro p hp
      cases hp with
      | read h1 h2 => rcases moved_reads h1 h2 with rfl | rfl <;> simp
      | output h1 => rcases moved_found h1 with rfl | rfl <;> simp
      | globals =>
        have : globalsPath Demo.movedCfg ⟨true, ["srv", "app"]⟩ = ⟨true, ["srv", "app", "globals.ts"]⟩ := by
          decide +kernel
        rw [this]
        simp
    have key : ∀ p ∈ [⟨true, ["srv", "app", "q.graphql"]⟩, ⟨true, ["srv", "app", "f.graphql"]⟩,
          outputPath ⟨true, ["srv", "app", "q.graphql"]⟩, outputPath ⟨true, ["srv", "app", "f.graphql"]⟩,
          ⟨true, ["srv", "app", "globals.ts"]⟩],
        ∀ q ∈ [⟨true, ["srv", "app", "q.graphql"]⟩, ⟨true, ["srv", "app", "f.graphql"]⟩,
          outputPath ⟨true, ["srv", "app", "q.graphql"]⟩, outputPath ⟨true, ["srv", "app", "f.graphql"]⟩,
          ⟨true, ["srv", "app", "globals.ts"]⟩],
        Path.display p = Path.display q → place [] p = place [] q := by decide +kernel
    exact fun p q hp hq e => key p (hall p hp) q (hall q hq) e

/-- The pool after the run on the moved project. -/
def movedRun : PoolSt World :=
  (PoolSt.init Demo.movedWorld 1 Demo.movedTree).run
    (poolCompile (fun _ => .reversed) 9 Demo.runExt Demo.movedCfg Demo.respSchema) 1 Demo.fileSched

/-- The end of that run. -/
def movedEnd : Option (List Msg × World) :=
  finishWork .inOrder 9 Demo.movedCfg Demo.respSchema movedRun.world ⟨true, ["srv", "app"]⟩ movedRun.aggregate

/-- The demo project is compiled in `/r`, moved to `/srv/app`, and compiled there under other hash orders: the
generated files are the same. -/
theorem C117_demo : ∃ s₁ s₂ ms₁ ms₂ w₁ w₂ text globals,
    RunsTo (fun _ => .inOrder) .reversed 9 Demo.runExt Demo.cfg Demo.respSchema ⟨true, ["r"]⟩ Demo.fileTree 1
      Demo.runWorld s₁ ms₁ w₁ ∧
    RunsTo (fun _ => .reversed) .inOrder 9 Demo.runExt Demo.movedCfg Demo.respSchema ⟨true, ["srv", "app"]⟩
      Demo.movedTree 1 Demo.movedWorld s₂ ms₂ w₂ ∧
    (printExitInfo .plain ms₂).code = 0 ∧
    w₁.disk "/r/q.graphql.d.ts" = .ok text ∧ w₂.disk "/srv/app/q.graphql.d.ts" = .ok text ∧
    w₁.disk "/r/globals.ts" = .ok globals ∧ w₂.disk "/srv/app/globals.ts" = .ok globals := by
  obtain ⟨hno, hd, hga⟩ := C114_paths_apart C114_demo.1
  obtain ⟨hno', hd', hga'⟩ := C114_paths_apart moved_ordinary
  have a1 : (endsWith fullRun fullEnd).isSome = true := by decide +kernel
  have a2 : (movedRun.finished && (pending movedRun).isEmpty && movedEnd.isSome) = true := by decide +kernel
  have a3 : fullRun.aggregate.2 ≠ [] := by decide +kernel
  obtain ⟨t₁, b1⟩ := Option.isSome_iff_exists.1 a1
  obtain ⟨ms₁, w₁, e₁, h1, h2, h5, d1⟩ := endsWith_some b1
  simp only [Bool.and_eq_true, List.isEmpty_iff] at a2
  obtain ⟨⟨h3, h4⟩, h6⟩ := a2
  obtain ⟨⟨ms₂, w₂⟩, e₂⟩ := Option.isSome_iff_exists.1 h6
  have R₁ : RunsTo (fun _ => .inOrder) .reversed 9 Demo.runExt Demo.cfg Demo.respSchema ⟨true, ["r"]⟩
      Demo.fileTree 1 Demo.runWorld fullRun ms₁ w₁ := ⟨⟨_, rfl⟩, h1, h2, e₁⟩
  have R₂ : RunsTo (fun _ => .reversed) .inOrder 9 Demo.runExt Demo.movedCfg Demo.respSchema ⟨true, ["srv", "app"]⟩
      Demo.movedTree 1 Demo.movedWorld movedRun ms₂ w₂ := ⟨⟨_, rfl⟩, h3, h4, e₂⟩
  obtain ⟨c1, c2, c3⟩ := C117_move_and_rerun .plain hno hd hga hno' hd' hga' resp_valid resp_loads demo_moved
    (by decide +kernel) (fun _ _ => rfl) rfl (fun p hp => run_hashProof hp) R₁ R₂ h5
  obtain ⟨g, hg⟩ := List.exists_mem_of_ne_nil _ a3
  obtain ⟨gt, g1, g2⟩ := c3 ⟨g, (usedGlobal_iff (after_run hno hd hga R₁) g).1 hg⟩
  obtain ⟨t, t1, t2⟩ := c2 ["q.graphql"] ((mem_filesOf _ _).1 (by decide +kernel))
  have k1 : Demo.runWorld.resolve (outputPath (below Demo.cfg.rootDir ["q.graphql"])) = "/r/q.graphql.d.ts" := by
    decide +kernel
  have k2 : Demo.movedWorld.resolve (outputPath (below Demo.movedCfg.rootDir ["q.graphql"])) =
      "/srv/app/q.graphql.d.ts" := by decide +kernel
  have k3 : globalsId Demo.runWorld Demo.cfg ⟨true, ["r"]⟩ = "/r/globals.ts" := by decide +kernel
  have k4 : globalsId Demo.movedWorld Demo.movedCfg ⟨true, ["srv", "app"]⟩ = "/srv/app/globals.ts" := by
    decide +kernel
  rw [k1] at t1
  rw [k2] at t2
  rw [k3] at g1
  rw [k4] at g2
  exact ⟨_, _, ms₁, ms₂, w₁, w₂, t, gt, R₁, R₂, c1, t1, t2, g1, g2⟩

/-! ### Reorganised imports -/

/-- The files that scanning the imports of a file finds, with their texts. -/
def scanOf (w : World) (cfg : CompileConfig) (fuel : Nat) (p : Path) (c : String) : Option (List (Path × String)) :=
  match addImported w cfg fuel p c ⟨[], []⟩ with
  | some (.done st) => some (st.imports.map (fun e => (e.1, e.2.1)))
  | _ => none

theorem imported_of_scan {ext : Ext} {w : World} {cfg : CompileConfig} {fuel : Nat} {p : Path} {c : String}
    {l : List (Path × String)} (h : scanOf w cfg fuel p c = some l) (f : FragmentDef) :
    ImportedFragment ext w cfg p c f ↔ ∃ e ∈ l, ext.parse e.2 = .ok [.fragment f] := by
  unfold scanOf at h
  cases hs : addImported w cfg fuel p c ⟨[], []⟩ with
  | none => rw [hs] at h; cases h
  | some x =>
    cases x with
    | panic => rw [hs] at h; cases h
    | done st =>
      rw [hs] at h
      injection h with h
      subst h
      obtain ⟨c1, c2, _, _⟩ := C35_import_closure w cfg fuel p c st hs
      constructor
      · rintro ⟨q, t, hl, hr, hp⟩
        obtain ⟨t', loc, he⟩ := (c1 q).2 hl
        have := c2 q t' loc he
        rw [hr] at this
        injection this with this
        subst this
        exact ⟨_, List.mem_map_of_mem he, hp⟩
      · rintro ⟨_, hm, hp⟩
        obtain ⟨⟨q, t, loc⟩, he, rfl⟩ := List.mem_map.1 hm
        exact ⟨q, t, (c1 q).1 ⟨t, loc, he⟩, c2 q t loc he, hp⟩

/-- The text of the query in another directory, with a comment and another import line. -/
def Demo.orgText : String := "# the page\n\n#import \"./parts/f.graphql\"\nquery Q"

/-- A stand-in for the parser on all these files. -/
def Demo.orgExt : Ext where
  parse := fun c => if c = Demo.orgText then .ok [Demo.query] else Demo.runExt.parse c
  dist := Demo.runExt.dist

/-- The query has moved to `/r/pages/q.graphql` and the fragment to `/r/pages/parts/f.graphql`. -/
def Demo.orgWorld : World where
  resolve := Path.display
  disk := fun id =>
    if id = "/r/pages/q.graphql" then .ok Demo.orgText
    else if id = "/r/pages/parts/f.graphql" then .ok "fragment F"
    else .error "missing"
  writeErr := fun _ => none

/-- The query is the same document after files have been moved and its import line adapted, so it generates the same
text. -/
theorem C117_reorganised_demo :
    SameDocument Demo.orgExt Demo.cfg Demo.runWorld Demo.qPath Demo.cfg Demo.orgWorld
      ⟨true, ["r", "pages", "q.graphql"]⟩ ∧
    ∃ ms ms' c, generateFile .inOrder 9 Demo.orgExt Demo.cfg Demo.respSchema Demo.runWorld Demo.qPath =
        some (.done (.ok (ms, c))) ∧
      generateFile .reversed 9 Demo.orgExt Demo.cfg Demo.respSchema Demo.orgWorld
        ⟨true, ["r", "pages", "q.graphql"]⟩ = some (.done (.ok (ms', c))) := by
  have pe : ∀ q c, Demo.runWorld.read q = .ok c → Demo.orgExt.parse c = Demo.runExt.parse c := by
    intro q c h
    unfold Demo.orgExt
    simp only
    rcases ren_texts h with rfl | rfl
    · rw [if_neg (by decide +kernel)]
    · rw [if_neg (by decide +kernel)]
  have rq : Demo.runWorld.read Demo.qPath = .ok Demo.runText := rfl
  have rq' : Demo.orgWorld.read ⟨true, ["r", "pages", "q.graphql"]⟩ = .ok Demo.orgText := rfl
  have pq : Demo.orgExt.parse Demo.runText = .ok [Demo.query] := by
    rw [pe _ _ rq]; simp [Demo.runExt]
  have pq' : Demo.orgExt.parse Demo.orgText = .ok [Demo.query] := by simp [Demo.orgExt]
  have s1 : scanOf Demo.runWorld Demo.cfg 9 Demo.qPath Demo.runText = some [(Demo.fPath, "fragment F")] := by
    decide +kernel
  have s2 : scanOf Demo.orgWorld Demo.cfg 9 ⟨true, ["r", "pages", "q.graphql"]⟩ Demo.orgText =
      some [(⟨true, ["r", "pages", "parts", "f.graphql"]⟩, "fragment F")] := by decide +kernel
  have i1 := imported_of_scan (ext := Demo.orgExt) s1
  have i2 := imported_of_scan (ext := Demo.orgExt) s2
  simp only [List.mem_singleton, exists_eq_left] at i1 i2
  have S : SameDocument Demo.orgExt Demo.cfg Demo.runWorld Demo.qPath Demo.cfg Demo.orgWorld
      ⟨true, ["r", "pages", "q.graphql"]⟩ := by
    refine ⟨?_, ?_, ?_⟩
    · rintro d ⟨c, hc, hd⟩
      rw [rq] at hc
      have hc := Except.ok.inj hc
      subst hc
      rw [pq] at hd
      have hd := (List.cons.inj (Except.ok.inj hd)).1
      subst hd
      exact ⟨_, ⟨_, rq', pq'⟩, sameDefinition_refl _⟩
    · intro c c' f hc hc' hf
      rw [rq] at hc
      rw [rq'] at hc'
      have hc := Except.ok.inj hc
      have hc' := Except.ok.inj hc'
      subst hc hc'
      exact ⟨f, (i2 f).2 ((i1 f).1 hf), renamedFragment_id f⟩
    · intro c c' f hc hc' hf
      rw [rq] at hc
      rw [rq'] at hc'
      have hc := Except.ok.inj hc
      have hc' := Except.ok.inj hc'
      subst hc hc'
      exact ⟨f, (i1 f).2 ((i2 f).1 hf), renamedFragment_id f⟩
  refine ⟨S, ?_⟩
  have g1 : generatesText (generateFile .inOrder 9 Demo.orgExt Demo.cfg Demo.respSchema Demo.runWorld Demo.qPath) =
      some true := by decide +kernel
  have g2 : (generatesText (generateFile .reversed 9 Demo.orgExt Demo.cfg Demo.respSchema Demo.orgWorld
      ⟨true, ["r", "pages", "q.graphql"]⟩)).isSome = true := by decide +kernel
  cases k1 : generateFile .inOrder 9 Demo.orgExt Demo.cfg Demo.respSchema Demo.runWorld Demo.qPath with
  | none => rw [k1] at g1; cases g1
  | some x =>
    cases x with
    | panic => rw [k1] at g1; cases g1
    | done y =>
      cases y with
      | error es => rw [k1] at g1; cases g1
      | ok a =>
        obtain ⟨ms, c⟩ := a
        cases k2 : generateFile .reversed 9 Demo.orgExt Demo.cfg Demo.respSchema Demo.orgWorld
            ⟨true, ["r", "pages", "q.graphql"]⟩ with
        | none => rw [k2] at g2; cases g2
        | some x' =>
          cases x' with
          | panic => rw [k2] at g2; cases g2
          | done y' =>
            obtain ⟨ms', rfl, _⟩ := C117_document (loaded_consistent resp_valid resp_loads)
              (hashProof_ext pe (run_hashProof ((mem_filesOf _ _).1 (by decide +kernel)))) S ⟨rfl, rfl⟩ k1 k2
            exact ⟨ms, ms', c, rfl, rfl⟩

/-! ### Absolute imports -/

/-- A stand-in for the parser. -/
def Demo.absExt : Ext where
  parse := fun c =>
    if c = "#import \"/r/f.graphql\"\n...F" then .ok [Demo.collideQuery "F"]
    else if c = "fragment F" then .ok [.fragment Demo.fragF]
    else .error "syntax error"
  dist := fun _ _ => 9

/-- A project in the directory `dir` whose query imports `/r/f.graphql`. -/
def Demo.absWorld (dir : String) : World where
  resolve := Path.display
  disk := fun id =>
    if id = dir ++ "/q.graphql" then .ok "#import \"/r/f.graphql\"\n...F"
    else if id = dir ++ "/f.graphql" then .ok "fragment F"
    else .error "missing"
  writeErr := fun _ => none

/-- **C117, why imports must not be absolute.** A query that imports `/r/f.graphql` compiles while the project is in
`/r`, and no longer once the project has been moved to `/srv/app`. -/
theorem C117_absolute_import_witness :
    (∀ n, n = "q.graphql" ∨ n = "f.graphql" → (Demo.absWorld "/srv/app").read ⟨true, ["srv", "app", n]⟩ =
      (Demo.absWorld "/r").read ⟨true, ["r", n]⟩) ∧
    generatesText (generateFile .inOrder 9 Demo.absExt Demo.cfg Demo.respSchema (Demo.absWorld "/r")
      ⟨true, ["r", "q.graphql"]⟩) = some true ∧
    generatesText (generateFile .inOrder 9 Demo.absExt Demo.movedCfg Demo.respSchema (Demo.absWorld "/srv/app")
      ⟨true, ["srv", "app", "q.graphql"]⟩) = some false := by
  refine ⟨?_, by decide +kernel, by decide +kernel⟩
  rintro n (rfl | rfl) <;> decide +kernel

end Qlc
