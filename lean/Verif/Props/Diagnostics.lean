import Verif.Props.Warnings
import Verif.Props.Compile
import Verif.Props.Names
import Verif.Props.Cli
import Verif.Spec.Diagnostics
/-
Properties C82, C83, C84: the text of what is printed about a file.
-/
set_option autoImplicit false

namespace Qlc
open Spec

/-! ### The text of one message -/

/-- The word a level is printed as. -/
def levelWord : Level → String
  | .compileWarning => "warning"
  | .compileError => "error"
  | .programError => "program error"

theorem str_eq {a b : String} (h : a.toList = b.toList) : a = b := String.toList_inj.1 h

theorem render_bare (l : Level) (m : String) :
    (Msg.mk l none m).render .plain = (Notice.mk (levelWord l) m none none).text := by
  cases l <;> (apply str_eq; simp [Msg.render, Paint.plain, Notice.text, Notice.lines, joinWith, levelWord])

theorem render_file (l : Level) (m : String) (p : Path) :
    (Msg.mk l (some ⟨p, none⟩) m).render .plain =
      (Notice.mk (levelWord l) m (some p.display) none).text := by
  cases l <;> (apply str_eq; simp [Msg.render, Source.render, Paint.plain, Notice.text, Notice.lines, joinWith,
    levelWord, spaces])

theorem render_spot (l : Level) (m : String) (p : Path) (line : Nat) (q : String) (help : Option String)
    (col : Nat) :
    (Msg.mk l (some ⟨p, some ⟨toString line, q, help, some col⟩⟩) m).render .plain =
      (Notice.mk (levelWord l) m (some p.display) (some ⟨line, col, q, help⟩)).text := by
  cases l <;> cases help <;> (apply str_eq; simp [Msg.render, Source.render, Location.colon,
    Location.lineEncoding, Paint.plain, Notice.text, Notice.lines, joinWith, levelWord, spaces, blankText,
    List.replicate_add])

theorem quotedLine_of (contents : String) (n : Nat) :
    QuotedLine contents n (((lines contents)[n - 1]?).getD "<<QLC unknown line>>") := by
  obtain ⟨ls, hl⟩ := isLines_exists contents.toList.length contents.toList (Nat.le_refl _)
  refine ⟨ls, hl, ?_⟩
  have e : lines contents = ls.map String.ofList := by
    unfold lines; rw [linesC_eq hl]
  rw [e, List.getElem?_map]
  cases h : ls[n - 1]? with
  | none => right; exact ⟨List.getElem?_eq_none_iff.1 h, rfl⟩
  | some l => left; simp

theorem quotedLine_unique {contents q q' : String} {n : Nat} (h : QuotedLine contents n q)
    (h' : QuotedLine contents n q') : q = q' := by
  obtain ⟨ls, hl, h⟩ := h
  obtain ⟨ls', hl', h'⟩ := h'
  have e : ls = ls' := by rw [← linesC_eq hl, ← linesC_eq hl']
  subst e
  rcases h with h | ⟨h, rfl⟩ <;> rcases h' with h' | ⟨h', rfl⟩
  · rw [h] at h'; injection h' with h'; exact str_eq h'
  · rw [List.getElem?_eq_none_iff.2 h'] at h; simp at h
  · rw [List.getElem?_eq_none_iff.2 h] at h'; simp at h'
  · rfl

/-- The text of a located message. -/
theorem located_text (l : Level) (m : String) (p : Path) (contents : String) (pos : Pos)
    (help : Option String) :
    ∃ n, At p.display contents (levelWord l) m help pos n ∧
      (Msg.located l m p contents pos help).render .plain = n.text := by
  refine ⟨⟨levelWord l, m, some p.display, some ⟨pos.line, pos.column, _, help⟩⟩,
    ⟨rfl, rfl, rfl, _, quotedLine_of contents pos.line, rfl⟩, ?_⟩
  rw [← render_spot]
  unfold Msg.located Location.ofContentsAndPos Location.withHelp
  cases help <;> rfl

/-! ### Suggestions -/

theorem suggests_of (dist : String → String → Nat) (name : String) (names candidates : List String)
    (other : String) (h : names.Perm candidates) :
    Suggests dist name candidates other ((similarHelp dist name names).getD other) := by
  refine ⟨names.filter (fun c => decide (dist name c < 3)), h.filter _, ?_⟩
  unfold similarHelp
  simp only [List.isEmpty_iff]
  split <;> rfl

/-! ### Notices of errors and warnings -/

variable {schema : Schema} {frags : Frags}

theorem conditionError_notice (dist : String → String → Nat) (p : Path) (contents : String) (pos : Pos)
    (C : String) (h : ¬ IsComposite schema C) :
    ∃ n, WrongTypeNotice schema p.display contents pos C n ∧
      ((conditionError schema C pos).toMsg dist contents p).render .plain = n.text := by
  unfold conditionError
  cases ht : schema.getType C with
  | none => exact ⟨_, .unknown ht, render_bare _ _⟩
  | some t =>
    have key : ∀ (hl : (∃ vs, t.definition = .enum vs) ∨ (∃ m, t.definition = .scalar m)),
        ∃ n, WrongTypeNotice schema p.display contents pos C n ∧
          ((IrError.selectionSetOnWrongType C pos).toMsg dist contents p).render .plain = n.text := by
      intro hl
      obtain ⟨n, h1, h2⟩ := located_text .compileError ("unexpected selection on field of type `" ++ C ++ "`")
        p contents pos (some "This field is not a complex type with selections. Did you accidentally place the curlies on this field?")
      exact ⟨n, .leaf ht hl h1, h2⟩
    simp only
    cases hd : t.definition with
    | object f => exact absurd (by simp [IsComposite, fieldsOf, ht, hd]) h
    | interface n f ps => exact absurd (by simp [IsComposite, fieldsOf, ht, hd]) h
    | union n ps f => exact absurd (by simp [IsComposite, fieldsOf, ht, hd]) h
    | inputObject m fl => exact ⟨_, .input ht hd, render_bare _ _⟩
    | enum vs => exact key (.inl ⟨vs, hd⟩)
    | scalar m => exact key (.inr ⟨m, hd⟩)

theorem reports_notice (dist : String → String → Nat) (p : Path) (contents : String) {P : String}
    {sel : Selection} {e : IrError} (h : Reports schema frags P sel e) :
    ∃ n, SelectionNotice schema frags dist p.display contents P sel n ∧
      (e.toMsg dist contents p).render .plain = n.text := by
  cases h with
  | @unknownField pos al name args dirs items fl names h1 h2 h3 =>
    obtain ⟨n, a, b⟩ := located_text .compileError ("unknown field `" ++ name ++ "`") p contents pos
      (some ("Check the fields of `" ++ P ++ "`." ++ (similarHelp dist name names).getD ""))
    exact ⟨n, .unknownField h1 h2 (suggests_of dist name names _ "" h3) a, b⟩
  | @missingSelections pos al name args dirs f h1 h2 =>
    obtain ⟨n, a, b⟩ := located_text .compileError _ p contents pos _
    exact ⟨n, .missingSelections h1 h2 a, b⟩
  | @selectionsOnLeaf pos al name args dirs items f h1 h2 h3 =>
    obtain ⟨n, a, b⟩ := located_text .compileError _ p contents pos _
    exact ⟨n, .selectionsOnLeaf h1 h2 h3 a, b⟩
  | @noCondition pos dirs items =>
    obtain ⟨n, a, b⟩ := located_text .compileError _ p contents pos _
    exact ⟨n, .noCondition a, b⟩
  | @unknownType pos C dirs items h1 => exact ⟨_, .condition (.unknown h1), render_bare _ _⟩
  | @inputType pos C dirs items t m fl h1 h2 => exact ⟨_, .condition (.input h1 h2), render_bare _ _⟩
  | @enumType pos C dirs items t vs h1 h2 =>
    obtain ⟨n, a, b⟩ := located_text .compileError _ p contents pos _
    exact ⟨n, .condition (.leaf h1 (.inl ⟨_, h2⟩) a), b⟩
  | @scalarType pos C dirs items t m h1 h2 =>
    obtain ⟨n, a, b⟩ := located_text .compileError _ p contents pos _
    exact ⟨n, .condition (.leaf h1 (.inr ⟨_, h2⟩) a), b⟩
  | @unknownFragment pos name dirs names h1 h2 =>
    obtain ⟨n, a, b⟩ := located_text .compileError ("unknown spread fragment name `" ++ name ++ "`") p
      contents pos (some ("This fragment name doesn't appear to be in scope." ++
        (similarHelp dist name names).getD " Did you forget to import it?"))
    exact ⟨n, .unknownFragment h1 (suggests_of dist name names _ _ h2) a, b⟩

theorem concerns_of (p : Path) (contents : String) : ∀ (ws : List Warning)
    (Ns : List (Pos × String × List String)), List.Forall₂ WarnsFor (narrowings ws) Ns →
    ∃ cs ns, neverMatchingOf cs = Ns ∧ deprecatedOf cs = deprecations ws ∧
      List.Forall₂ (ConcernNotice p.display contents) cs ns ∧
      (ws.map (Warning.toMsg contents p)).map (Msg.render .plain) = ns.map Notice.text
  | [], Ns, h => by
    cases h
    exact ⟨[], [], rfl, rfl, .nil, rfl⟩
  | .overFragmentNarrowing pos ts C :: ws, Ns, h => by
    have e : narrowings (.overFragmentNarrowing pos ts C :: ws) = (pos, C, ts) :: narrowings ws := by
      simp [narrowings]
    rw [e] at h
    cases h with
    | @cons _ b _ Ns' hb hrest =>
      obtain ⟨cs, ns, h1, h2, h3, h4⟩ := concerns_of p contents ws Ns' hrest
      obtain ⟨pos', C', N'⟩ := b
      obtain ⟨e1, e2, e3, e4⟩ := hb
      simp only at e1 e2 e3 e4
      subst e1 e2
      obtain ⟨n, a, b⟩ := located_text .compileWarning ("fragment over narrowing with type `" ++ C ++ "`") p
        contents pos (some ("The parent types of this spread are limited to `" ++ joinWith "`, `" ts ++
          "`, making spreading `" ++ C ++ "` extraneous."))
      refine ⟨.neverMatches pos C N' :: cs, n :: ns, ?_, ?_, .cons (.neverMatches e3 e4 a) h3, ?_⟩
      · simp only [neverMatchingOf, List.filterMap_cons]
        exact congrArg _ h1
      · simp only [deprecatedOf, deprecations, List.filterMap_cons]
        exact h2
      · simp only [List.map_cons, h4]
        congr 1
  | .deprecatedFieldUse pos f t :: ws, Ns, h => by
    have e : narrowings (.deprecatedFieldUse pos f t :: ws) = narrowings ws := by simp [narrowings]
    rw [e] at h
    obtain ⟨cs, ns, h1, h2, h3, h4⟩ := concerns_of p contents ws Ns h
    obtain ⟨n, a, b⟩ := located_text .compileWarning
      ("use of deprecated field `" ++ f ++ "` on type `" ++ t ++ "`") p contents pos none
    refine ⟨.deprecated pos f t :: cs, n :: ns, ?_, ?_, .cons (.deprecated a) h3, ?_⟩
    · simp only [neverMatchingOf, List.filterMap_cons]
      exact h1
    · simp only [deprecatedOf, deprecations, List.filterMap_cons]
      exact congrArg _ h2
    · simp only [List.map_cons, h4]
      congr 1

/-! ### Notices about imports -/

variable {w : World} {cfg : CompileConfig} {ext : Ext}

theorem importErr_reached {p : Path} {contents : String} {m : Msg} (h : ImportErr w cfg p contents m) :
    ∃ importer ic il q e, Reached w cfg p contents importer ic ∧ Imports cfg importer ic il q ∧
      w.read q = .error e ∧ m = unreadable importer il q e := by
  induction h with
  | @here file contents il q e hi hr => exact ⟨file, contents, il, q, e, .inl ⟨rfl, rfl⟩, hi, hr, rfl⟩
  | @there file contents il p c m hi hr _ ih =>
    obtain ⟨importer, ic, il', q, e, h1, h2, h3, h4⟩ := ih
    refine ⟨importer, ic, il', q, e, .inr ?_, h2, h3, h4⟩
    rcases h1 with ⟨rfl, rfl⟩ | ⟨h1, h5⟩
    · exact ⟨.direct hi hr, hr⟩
    · exact ⟨.trans hi hr h1, h5⟩

theorem importErr_of_reached {p : Path} {contents : String} {importer : Path} {ic : String} {il : ImportLine}
    {q : Path} {e : String} (h : Reached w cfg p contents importer ic) (hi : Imports cfg importer ic il q)
    (hr : w.read q = .error e) : ImportErr w cfg p contents (unreadable importer il q e) := by
  rcases h with ⟨rfl, rfl⟩ | ⟨h, hr'⟩
  · exact .here hi hr
  · induction h with
    | @direct file contents il' q' c hi' hc =>
      rw [hc] at hr'
      injection hr' with hr'
      subst hr'
      exact .there hi' hc (.here hi hr)
    | trans hi' hc _ ih => exact .there hi' hc (ih hi hr')

/-- The notice about an unreadable import. -/
theorem unreadable_text (importer : Path) (il : ImportLine) (q : Path) (e : String) :
    (unreadable importer il q e).render .plain =
      (Notice.mk "error" ("could not read `" ++ q.display ++ "`: " ++ e) (some importer.display)
        (some (il.spot none))).text :=
  render_spot .compileError _ importer il.number _ none 9

theorem notAFragment_text (p : Path) (il : ImportLine) :
    (notAFragment p il.loc).render .plain =
      (Notice.mk "error" ("cannot import non-fragment GraphQL document `" ++ p.display ++ "`") (some p.display)
        (some (il.spot (some "This document is not a fragment, and importing it is probably a mistake.")))).text :=
  render_spot .compileError _ p il.number _ _ 9

theorem isFragment_false_iff (d : Definition) : d.isFragment = false ↔ ∀ f, d ≠ .fragment f := by
  cases d <;> simp [Definition.isFragment]

theorem import_texts {ω : Hash} {fuel : Nat} {p : Path} {contents : String} {st : ImportSt}
    (hs : addImported w cfg fuel p contents ⟨[], []⟩ = some (.done st)) :
    ImportTexts ext w cfg p contents
      ((parseForeignFragments ω ext p st.imports st.messages).2.map (Msg.render .plain)) := by
  obtain ⟨hk, hread, _, hm⟩ := C35_import_closure w cfg fuel p contents st hs
  have hF := (C39_scope_and_errors ω ext p st.imports st.messages).2.2
  have hnf : ∀ e ∈ st.imports, ∀ d, DefinesOnly ext e d → d.isFragment = false →
      Loads w cfg p contents e.1 ∧ HoldsOperation ext w e.1 ∧ ∃ n, NonFragmentImport w cfg p contents e.1 n ∧
        (notAFragment p e.2.2).render .plain = n.text := by
    rintro ⟨q, c, loc⟩ he d hd hfr
    obtain ⟨importer, ic, il, h1, h2, rfl⟩ := (C61_non_fragment_location w cfg fuel p contents st hs q c loc he).1
    exact ⟨(hk q).1 ⟨_, _, he⟩, ⟨c, d, hread _ _ _ he, hd, (isFragment_false_iff d).1 hfr⟩, _,
      ⟨importer, ic, il, h1, h2, rfl⟩, notAFragment_text p il⟩
  refine ⟨?_, ?_, ?_⟩
  · intro t ht
    obtain ⟨m, hmem, rfl⟩ := List.mem_map.1 ht
    rcases (hF m).1 hmem with hmem | ⟨e, he, d, hd, hfr, rfl⟩
    · obtain ⟨importer, ic, il, q, e, h1, h2, h3, rfl⟩ := importErr_reached ((hm m).1 hmem)
      exact ⟨_, unreadable_text importer il q e, .inl ⟨importer, ic, il, q, e, h1, h2, h3, rfl⟩⟩
    · obtain ⟨h1, h2, n, h3, h4⟩ := hnf e he d hd hfr
      exact ⟨n, h4, .inr ⟨e.1, h1, h2, h3⟩⟩
  · rintro n ⟨importer, ic, il, q, e, h1, h2, h3, rfl⟩
    rw [← unreadable_text]
    exact List.mem_map.2 ⟨_, (hF _).2 (.inl ((hm _).2 (importErr_of_reached h1 h2 h3))), rfl⟩
  · rintro q hq ⟨c, d, hc, hd, hfr⟩
    obtain ⟨c', loc, he⟩ := (hk q).2 hq
    have : c' = c := by
      have := hread _ _ _ he
      rw [hc] at this
      injection this with this
      exact this.symm
    subst this
    have hfr' := (isFragment_false_iff d).2 hfr
    obtain ⟨_, _, n, h3, h4⟩ := hnf _ he d hd hfr'
    refine ⟨n, h3, ?_⟩
    rw [← h4]
    exact List.mem_map.2 ⟨_, (hF _).2 (.inr ⟨_, he, d, hd, hfr', rfl⟩), rfl⟩

/-! ### The messages of one file -/

section OneFile
variable {ω : Hash} {fuel : Nat} {p : Path} {r : CompileResult} {contents : String} {d : Definition}
  {st : ImportSt}

/-- The texts printed about a file, without colours. -/
def CompileResult.texts (r : CompileResult) : List String := r.messages.map (Msg.render .plain)

/-- How the messages of a file with one definition come about. -/
theorem fileMessages_of (h : compileFile ω fuel ext cfg schema w p = some (.done r))
    (hr : w.read p = .ok contents) (hp : ext.parse contents = .ok [d])
    (hs : addImported w cfg fuel p contents ⟨[], []⟩ = some (.done st)) :
    ∃ res ws, Operation.compile ω fuel ⟨schema, cfg.showDeprecationWarnings,
        (parseForeignFragments ω ext p st.imports st.messages).1⟩ d = some (res, ws) ∧
      ((∃ es, res = .error es ∧ r = ⟨.error ((parseForeignFragments ω ext p st.imports st.messages).2 ++
          (es.map (IrError.toMsg ext.dist contents p) ++ ws.map (Warning.toMsg contents p))), w⟩) ∨
       (∃ op e, res = .ok op ∧ compileIr ω op cfg.toTsConfig schema = .error e ∧
          r = ⟨.error ((parseForeignFragments ω ext p st.imports st.messages).2 ++
            ws.map (Warning.toMsg contents p) ++ [e.toMsg]), w⟩) ∨
       (∃ op c, res = .ok op ∧ compileIr ω op cfg.toTsConfig schema = .ok c ∧
          (w.writeErr (w.resolve (outputPath p)) = none → r.result =
            .ok ⟨(parseForeignFragments ω ext p st.imports st.messages).2 ++
              ws.map (Warning.toMsg contents p), c.globalTypesUsed⟩) ∧
          (∀ e left, w.writeErr (w.resolve (outputPath p)) = some (e, left) → r.result =
            .error [.ioError "write" e (outputPath p)]))) := by
  unfold compileFile generateFile readGraphqlFile World.write at h
  simp only [hr, (parse_ok _ _ p _).2 hp, hs] at h
  cases hc : Operation.compile ω fuel ⟨schema, cfg.showDeprecationWarnings,
      (parseForeignFragments ω ext p st.imports st.messages).1⟩ d with
  | none => rw [hc] at h; simp at h
  | some x =>
    obtain ⟨res, ws⟩ := x
    refine ⟨res, ws, rfl, ?_⟩
    rw [hc] at h
    cases res with
    | error es =>
      simp only [Option.some.injEq, PanicOr.done.injEq] at h
      exact .inl ⟨es, rfl, h.symm⟩
    | ok op =>
      cases hg : compileIr ω op cfg.toTsConfig schema with
      | error e =>
        simp only [hg, Option.some.injEq, PanicOr.done.injEq] at h
        exact .inr (.inl ⟨op, e, rfl, hg, h.symm⟩)
      | ok c =>
        refine .inr (.inr ⟨op, c, rfl, hg, ?_, ?_⟩)
        · intro hw
          simp only [hg, hw, Option.some.injEq, PanicOr.done.injEq] at h
          rw [← h]
        · intro e left hw
          cases left <;>
            (simp only [hg, hw, Option.some.injEq, PanicOr.done.injEq] at h; rw [← h])

theorem warning_texts {showDep : Bool} {res : Except (List IrError) Operation} {ws : List Warning} {P : String}
    (hcon : Consistent schema) (hP : rootType d = some P) (hcomp : IsComposite schema P)
    (hc : Operation.compile ω fuel ⟨schema, showDep, frags⟩ d = some (res, ws)) :
    WarningTexts schema frags showDep p.display contents P (itemsOf d)
      ((ws.map (Warning.toMsg contents p)).map (Msg.render .plain)) := by
  obtain ⟨cs, ns, h1, h2, h3, h4⟩ := concerns_of p contents ws _
    (C14_warnings_are_the_never_matching ω fuel showDep hcon d res ws P hP hcomp hc)
  refine ⟨cs, ns, h1, ?_, h3, h4⟩
  rw [h2]
  exact C15_deprecation_warnings_of_any_definition ω fuel showDep hcon d res ws P hP hcomp hc

theorem forall₂_notices {α β : Type} {R : α → β → Prop} {S : α → Notice → Prop} {f : β → String}
    (h : ∀ a b, R a b → ∃ n, S a n ∧ f b = n.text) {as : List α} {bs : List β} (hF : List.Forall₂ R as bs) :
    ∃ ns, List.Forall₂ S as ns ∧ bs.map f = ns.map Notice.text := by
  induction hF with
  | nil => exact ⟨[], .nil, rfl⟩
  | cons hab _ ih =>
    obtain ⟨n, h1, h2⟩ := h _ _ hab
    obtain ⟨ns, h3, h4⟩ := ih
    exact ⟨n :: ns, .cons h1 h3, by simp [h2, h4]⟩

/-- **C82.** If a file holds one definition, with invalid selections, then nothing is written and exactly the
following is printed about it: the texts about its imports, then one text for each invalid selection, in
document order, which says what is wrong with that selection, quotes its line and marks its column, and makes
the right suggestions; then the texts of the warnings. -/
theorem C82_invalid_selections_as_printed (hcon : Consistent schema)
    (h : compileFile ω fuel ext cfg schema w p = some (.done r))
    (hr : w.read p = .ok contents) (hp : ext.parse contents = .ok [d])
    (hs : addImported w cfg fuel p contents ⟨[], []⟩ = some (.done st))
    (P : String) (hP : rootType d = some P) (hcomp : IsComposite schema P)
    (hfr : frags = (parseForeignFragments ω ext p st.imports st.messages).1)
    (hinv : ¬ Valid schema frags P (itemsOf d)) :
    ∃ imports errors warnings, r.texts = imports ++ errors ++ warnings ∧
      ImportTexts ext w cfg p contents imports ∧
      (∃ ns : List Notice, errors = ns.map Notice.text ∧ List.Forall₂
        (fun (x : String × Selection) n => SelectionNotice schema frags ext.dist p.display contents x.1 x.2 n)
        (invalidSelections schema frags P (itemsOf d)) ns) ∧
      WarningTexts schema frags cfg.showDeprecationWarnings p.display contents P (itemsOf d) warnings ∧
      r.world = w := by
  obtain ⟨res, ws, hc, hcase⟩ := fileMessages_of h hr hp hs
  rw [← hfr] at hc
  obtain ⟨es, rfl, hF⟩ := C08_all_invalid_selections_reported ω fuel _ hcon d res ws P hP hcomp hc hinv
  rcases hcase with ⟨es', he, hres⟩ | ⟨op, e, he, _⟩ | ⟨op, c, he, _⟩
  · injection he with he
    subst he hres
    obtain ⟨ns, h1, h2⟩ := forall₂_notices
      (S := fun (x : String × Selection) n =>
        SelectionNotice schema frags ext.dist p.display contents x.1 x.2 n)
      (f := fun e => (IrError.toMsg ext.dist contents p e).render .plain)
      (fun a b hab => reports_notice ext.dist p contents hab) hF
    refine ⟨_, ns.map Notice.text, _, ?_, import_texts (ext := ext) (ω := ω) hs, ⟨ns, rfl, h1⟩,
      warning_texts (p := p) (contents := contents) hcon hP hcomp hc, rfl⟩
    simp only [CompileResult.texts, CompileResult.messages, List.map_append, List.append_assoc, ← h2]
    simp [Function.comp_def]
  · cases he
  · cases he

/-- **C82, a defect.** An inline fragment on a type that the schema does not have is a mistake in the file,
but what is printed about it is a "program error" that names neither the file nor the place. -/
theorem C82_misspelled_condition_has_no_place (dist : String → String → Nat) (file contents P : String)
    (pos : Pos) (C : String) (dirs : List Directive) (items : List Selection) (n : Notice)
    (h : SelectionNotice schema frags dist file contents P (.inline pos (some C) dirs items) n)
    (hC : schema.getType C = none) :
    n.text = "program error: failed lookup of type `" ++ C ++ "`" := by
  cases h with
  | condition h =>
    cases h with
    | unknown _ => apply str_eq; simp [Notice.text, Notice.lines, joinWith]
    | input h _ => rw [hC] at h; cases h
    | leaf h _ _ => rw [hC] at h; cases h

/-- **C83.** If a file is compiled successfully, exactly the following is printed about it: the texts about
its imports, then the texts of the warnings, which name the fragment or field concerned, quote its line and
mark its column. -/
theorem C83_warnings_as_printed (hcon : Consistent schema)
    (h : compileFile ω fuel ext cfg schema w p = some (.done r)) (rep : CompileReport)
    (hrep : r.result = .ok rep) :
    ∃ contents d st P frags imports warnings, w.read p = .ok contents ∧ ext.parse contents = .ok [d] ∧
      addImported w cfg fuel p contents ⟨[], []⟩ = some (.done st) ∧ rootType d = some P ∧
      frags = (parseForeignFragments ω ext p st.imports st.messages).1 ∧
      r.texts = imports ++ warnings ∧ ImportTexts ext w cfg p contents imports ∧
      WarningTexts schema frags cfg.showDeprecationWarnings p.display contents P (itemsOf d) warnings := by
  rcases C41_writes_only_its_output ω fuel ext cfg schema w p r h with
    ⟨contents, d, st, op, ws, c, G, _⟩ | ⟨_, _, es, he⟩
  · obtain ⟨res, ws', hc, hcase⟩ := fileMessages_of h G.readable G.parses G.scanned
    rw [G.valid] at hc
    simp only [Option.some.injEq, Prod.mk.injEq] at hc
    obtain ⟨rfl, rfl⟩ := hc
    obtain ⟨P, hP, hcomp, _⟩ := (C07_compiles_iff_valid ω fuel _ hcon d _ ws G.valid).1 ⟨op, rfl⟩
    rcases hcase with ⟨es', he, _⟩ | ⟨op', e, _, _, hres⟩ | ⟨op', c', _, _, h1, h2⟩
    · cases he
    · rw [hres] at hrep; cases hrep
    · refine ⟨contents, d, st, P, _, _, _, G.readable, G.parses, G.scanned, hP, rfl, ?_,
        import_texts (ext := ext) (ω := ω) G.scanned,
        warning_texts (p := p) (contents := contents) hcon hP hcomp G.valid⟩
      cases hw : w.writeErr (w.resolve (outputPath p)) with
      | some x => rw [h2 x.1 x.2 (by rw [hw])] at hrep; cases hrep
      | none => simp [CompileResult.texts, CompileResult.messages, h1 hw]
  · rw [he] at hrep; cases hrep

/-! ### C84: files that cannot be used as a whole -/

/-- **C84.** If a file does not hold exactly one definition, nothing is written and exactly one text is
printed about it: that it cannot be read and why, the syntax error, that it is empty, or where its second
definition starts. -/
theorem C84_not_one_definition_as_printed
    (h : compileFile ω fuel ext cfg schema w p = some (.done r))
    (hnot : ¬ ∃ contents d, w.read p = .ok contents ∧ ext.parse contents = .ok [d]) :
    ∃ n, FileNotice ext w p n ∧ r.texts = [n.text] ∧ r.world = w := by
  unfold compileFile generateFile readGraphqlFile at h
  cases hr : w.read p with
  | error e =>
    simp only [hr, Option.some.injEq, PanicOr.done.injEq] at h
    subst h
    exact ⟨_, .unreadable hr, congrArg (fun x => [x]) (render_bare .compileError _), rfl⟩
  | ok contents =>
    simp only [hr, parseGraphqlFile] at h
    cases hp : ext.parse contents with
    | error e =>
      simp only [hp, Option.some.injEq, PanicOr.done.injEq] at h
      subst h
      exact ⟨_, .syntax hr hp, congrArg (fun x => [x]) (render_file .compileError _ p), rfl⟩
    | ok ds =>
      match ds, hp with
      | [], hp =>
        simp only [hp, Option.some.injEq, PanicOr.done.injEq] at h
        subst h
        exact ⟨_, .empty hr hp, congrArg (fun x => [x]) (render_bare .compileError _), rfl⟩
      | [d], hp => exact absurd ⟨contents, d, hr, hp⟩ hnot
      | d1 :: d2 :: rest, hp =>
        simp only [hp, Option.some.injEq, PanicOr.done.injEq] at h
        subst h
        obtain ⟨n, a, b⟩ := located_text .compileError "multi definition files unsupported" p contents
          (startOf d2) (some "QLC does not support documents with more than one fragment, query or mutation per file. Move this definition to a seperate file and import it instead.")
        refine ⟨n, .several hr hp a, ?_, rfl⟩
        rw [← b]
        cases d2 <;> rfl

theorem seqE_map_error {ε α β : Type} (f : α → Except ε β) : ∀ (l : List α) (e : ε),
    seqE (l.map f) = .error e → ∃ good a rest, l = good ++ a :: rest ∧ (∀ x ∈ good, ∃ b, f x = .ok b) ∧
      f a = .error e
  | [], e, h => by simp [seqE] at h
  | a :: l, e, h => by
    simp only [List.map_cons] at h
    cases ha : f a with
    | error e' =>
      rw [ha] at h
      simp only [seqE, Except.error.injEq] at h
      subst h
      exact ⟨[], a, l, rfl, by simp, ha⟩
    | ok b =>
      rw [ha] at h
      simp only [seqE] at h
      cases hl : seqE (l.map f) with
      | ok bs => rw [hl] at h; simp at h
      | error e' =>
        rw [hl] at h
        simp only [Except.error.injEq] at h
        subst h
        obtain ⟨good, a', rest, h1, h2, h3⟩ := seqE_map_error f l e' hl
        refine ⟨a :: good, a', rest, by rw [h1]; rfl, ?_, h3⟩
        intro x hx
        rcases List.mem_cons.1 hx with rfl | hx
        · exact ⟨b, ha⟩
        · exact h2 x hx

theorem variable_notice (p : Path) (contents : String) (v : VarDef) (e : VarError)
    (h : buildVariable schema v = .error e) :
    ∃ n, VariableNotice schema p.display contents v n ∧ (e.toMsg contents p).render .plain = n.text := by
  have hbad : ¬ (SupportedVarType v.type ∧ KnownTypeName schema (baseName v.type)) := by
    rw [← C03_variable_accepted_iff]
    rintro ⟨x, hx⟩
    rw [h] at hx
    cases hx
  have nested : ListsOfLists v.type → ∃ n, VariableNotice schema p.display contents v n ∧
      ((VarError.listOfListNotSupported v.name v.pos).toMsg contents p).render .plain = n.text := by
    intro hl
    obtain ⟨n, a, b⟩ := located_text .compileError
      ("unsupported list of lists type for variable `" ++ v.name ++ "`") p contents v.pos _
    exact ⟨n, .nested hl a, b⟩
  have unsup : ¬ SupportedVarType v.type → ¬ ListsOfLists v.type →
      ∃ n, VariableNotice schema p.display contents v n ∧
      ((VarError.unprocessableVariableType v.name v.pos).toMsg contents p).render .plain = n.text := by
    intro hs hl
    obtain ⟨n, a, b⟩ := located_text .programError
      ("failed to process variable `" ++ v.name ++ "`") p contents v.pos _
    exact ⟨n, .unsupported hs hl a, b⟩
  have known : ∀ (m : Mod) (n : String), unwrapVarDef v = .ok (m, n) → n = baseName v.type →
      SupportedVarType v.type → ∃ nt, VariableNotice schema p.display contents v nt ∧
        (e.toMsg contents p).render .plain = nt.text := by
    intro m n hu hn hs
    have hk : ¬ KnownTypeName schema (baseName v.type) := fun hk => hbad ⟨hs, hk⟩
    unfold buildVariable at h
    rw [hu] at h
    simp only at h
    have he : e = .unknownCustomVariableType n v.pos := by
      unfold VariableType.ofName at h
      subst hn
      unfold KnownTypeName at hk
      simp only [List.mem_cons, List.not_mem_nil, or_false, not_or] at hk
      obtain ⟨⟨k1, k2, k3, k4, k5⟩, k6⟩ := hk
      simp only [k1, k2, k3, k4, k5, if_false] at h
      cases hg : schema.getType (baseName v.type) with
      | some t => exact absurd ⟨t, hg⟩ k6
      | none => rw [hg] at h; simp only [Except.error.injEq] at h; exact h.symm
    subst he hn
    obtain ⟨nt, a, b⟩ := located_text .compileError
      ("unknown type for variable `" ++ baseName v.type ++ "`") p contents v.pos none
    exact ⟨nt, .unknownType hs hk a, b⟩
  have wrong : ∀ e', unwrapVarDef v = .error e' → e = e' := by
    intro e' hu
    unfold buildVariable at h
    rw [hu] at h
    simp only [Except.error.injEq] at h
    exact h.symm
  unfold unwrapVarDef at known wrong
  match hty : v.type with
  | .named n =>
    exact known .nullable n (by rw [hty]) (by rw [hty]; rfl)
      (by rw [hty]; simp [SupportedVarType, WellFormed, listDepth])
  | .nonNull (.named n) =>
    exact known .none n (by rw [hty]) (by rw [hty]; rfl)
      (by rw [hty]; simp [SupportedVarType, WellFormed, listDepth])
  | .nonNull (.nonNull t) =>
    rw [wrong _ (by rw [hty])]
    exact unsup (by rw [hty]; simp [SupportedVarType, WellFormed]) (by rw [hty]; simp [ListsOfLists])
  | .nonNull (.list (.named n)) =>
    exact known .listOfNullable n (by rw [hty]) (by rw [hty]; rfl)
      (by rw [hty]; simp [SupportedVarType, WellFormed, listDepth])
  | .nonNull (.list (.nonNull (.named n))) =>
    exact known .list n (by rw [hty]) (by rw [hty]; rfl)
      (by rw [hty]; simp [SupportedVarType, WellFormed, listDepth])
  | .nonNull (.list (.nonNull (.nonNull t))) =>
    rw [wrong _ (by rw [hty])]
    exact unsup (by rw [hty]; simp [SupportedVarType, WellFormed]) (by rw [hty]; simp [ListsOfLists])
  | .nonNull (.list (.nonNull (.list t))) =>
    rw [wrong _ (by rw [hty])]
    exact unsup (by rw [hty]; simp [SupportedVarType, listDepth]) (by rw [hty]; simp [ListsOfLists])
  | .nonNull (.list (.list t)) =>
    rw [wrong _ (by rw [hty])]
    exact nested (by rw [hty]; simp [ListsOfLists])
  | .list (.list t) =>
    rw [wrong _ (by rw [hty])]
    exact nested (by rw [hty]; simp [ListsOfLists])
  | .list (.named n) =>
    exact known .nullableListOfNullable n (by rw [hty]) (by rw [hty]; rfl)
      (by rw [hty]; simp [SupportedVarType, WellFormed, listDepth])
  | .list (.nonNull (.named n)) =>
    exact known .nullableList n (by rw [hty]) (by rw [hty]; rfl)
      (by rw [hty]; simp [SupportedVarType, WellFormed, listDepth])
  | .list (.nonNull (.nonNull t)) =>
    rw [wrong _ (by rw [hty])]
    exact unsup (by rw [hty]; simp [SupportedVarType, WellFormed]) (by rw [hty]; simp [ListsOfLists])
  | .list (.nonNull (.list t)) =>
    rw [wrong _ (by rw [hty])]
    exact unsup (by rw [hty]; simp [SupportedVarType, listDepth]) (by rw [hty]; simp [ListsOfLists])

/-! ### Why generation can fail -/

/-- Generating a possibility fails only for want of alternatives. -/
def PossErr (p : Poss) : Prop := ∀ disp path g e, p.gen disp path g = .error e → e = .expectedAtLeastOnePossibility

theorem genDistinct_err {main : String} {rep : List String} : ∀ {ps : List Poss}, (∀ p ∈ ps, PossErr p) →
    ∀ defs names g e, genDistinct main rep ps defs names g = .error e → e = .expectedAtLeastOnePossibility
  | [], _, defs, names, g, e, h => by unfold genDistinct at h; cases h
  | p :: ps, hall, defs, names, g, e, h => by
    unfold genDistinct at h
    split at h
    · exact genDistinct_err (fun q hq => hall q (by simp [hq])) _ _ _ _ h
    · simp only at h
      split at h
      · rename_i e' he
        injection h with h
        exact h ▸ hall p (by simp) _ _ _ _ he
      · exact genDistinct_err (fun q hq => hall q (by simp [hq])) _ _ _ _ h

theorem genCollection_err (ω : Hash) {ps : List Poss} (hall : ∀ p ∈ ps, PossErr p) (main : String)
    (g : List String) (e : TsError) (h : genCollection ω ps main g = .error e) :
    e = .expectedAtLeastOnePossibility := by
  match ps with
  | [] => unfold genCollection at h; injection h with h; exact h.symm
  | [p] => unfold genCollection at h; exact hall p (by simp) _ _ _ _ h
  | p :: q :: rest =>
    unfold genCollection at h
    simp only at h
    split at h
    · exact hall p (by simp) _ _ _ _ h
    · split at h
      · rename_i e' he
        injection h with h
        exact h ▸ genDistinct_err hall _ _ _ _ he
      · split at h
        · cases h
        · rename_i rep hrep
          have hm := (List.mem_filter.1 (List.mem_of_getLast? hrep)).1
          unfold genSmoosh at h
          split at h
          · rename_i e' he
            injection h with h
            exact h ▸ hall rep hm _ _ _ _ he
          · cases h

mutual
theorem genFields_err (ω : Hash) (cfg : TsConfig) : ∀ (fs : List IRField) (disp path : String)
    (g : List String) (e : TsError), genFields ω cfg disp path fs g = .error e →
      e = .expectedAtLeastOnePossibility
  | [], _, _, _, _, h => by unfold genFields at h; cases h
  | .mk prop doc dep last mods ty :: rest, disp, path, g, e, h => by
    unfold genFields at h
    split at h
    · rename_i e' he
      injection h with h
      exact h ▸ genFieldType_err ω cfg ty _ _ _ _ he
    · split at h
      · rename_i e' he
        injection h with h
        exact h ▸ genFields_err ω cfg rest _ _ _ _ he
      · cases h
theorem genFieldType_err (ω : Hash) (cfg : TsConfig) : ∀ (ty : IRType) (disp path : String)
    (g : List String) (e : TsError), genFieldType ω cfg disp path ty g = .error e →
      e = .expectedAtLeastOnePossibility
  | .complex ps, disp, path, g, e, h => by
    unfold genFieldType at h
    split at h
    · rename_i e' he
      injection h with h
      exact h ▸ genCollection_err ω (possOf_err ω cfg ps) _ _ _ he
    · cases h
  | .enum n, _, _, _, _, h => by unfold genFieldType at h; cases h
  | .scalar s, _, _, _, _, h => by unfold genFieldType at h; cases h
  | .typeName, _, _, _, _, h => by unfold genFieldType at h; cases h
theorem possOf_err (ω : Hash) (cfg : TsConfig) : ∀ (ps : List Complex), ∀ p ∈ possOf ω cfg ps, PossErr p
  | [], p, hp => by unfold possOf at hp; simp at hp
  | .mk name fields :: rest, p, hp => by
    unfold possOf at hp
    rcases List.mem_cons.1 hp with rfl | hp
    · intro disp path g e h
      simp only at h
      split at h
      · rename_i e' he
        injection h with h
        exact h ▸ genFields_err ω cfg fields _ _ _ _ he
      · cases h
    · exact possOf_err ω cfg rest p hp
end

theorem compileIr_err {op : Operation} {tcfg : TsConfig} {e : TsError}
    (h : compileIr ω op tcfg schema = .error e)
    (hv : ∀ vs, op.variables = some vs → ∀ v ∈ vs, ∀ n, v.type = .custom n → (schema.getType n).isSome = true) :
    e = .expectedAtLeastOnePossibility := by
  unfold compileIr at h
  split at h
  · rename_i e' he
    injection h with h
    exact h ▸ genCollection_err ω (possOf_err ω tcfg _) _ _ _ he
  · rename_i defs g hd
    split at h
    · rename_i e' he
      exfalso
      unfold compileVariablesTypeDefinition at he
      cases ho : op.variables with
      | none => rw [ho] at he; cases he
      | some vs =>
        rw [ho] at he
        obtain ⟨r', hr'⟩ := compileVariableTypes_ok tcfg vs (hv vs ho) g
        simp only [hr'] at he
        cases he
    · cases h

/-- **C84.** A plain selection set in a file is reported at its start, after the texts about the imports. -/
theorem C84_plain_selection_set_as_printed
    (h : compileFile ω fuel ext cfg schema w p = some (.done r))
    (hr : w.read p = .ok contents) (hp : ext.parse contents = .ok [d])
    (hs : addImported w cfg fuel p contents ⟨[], []⟩ = some (.done st)) (hP : rootType d = none) :
    ∃ imports n, r.texts = imports ++ [n.text] ∧ ImportTexts ext w cfg p contents imports ∧
      At p.display contents "error" "unsupported selection set as operation"
        (some "QLC does not support a plain selection set as an operation.") (startOf d) n ∧
      r.world = w := by
  obtain ⟨res, ws, hc, hcase⟩ := fileMessages_of h hr hp hs
  cases d with
  | operation kw pos name vars dirs items => cases kw <;> simp [rootType] at hP
  | fragment f => simp [rootType] at hP
  | selectionSet pos items =>
    simp only [Operation.compile, Option.some.injEq, Prod.mk.injEq] at hc
    obtain ⟨rfl, rfl⟩ := hc
    rcases hcase with ⟨es', he, hres⟩ | ⟨op, e, he, _⟩ | ⟨op, c, he, _⟩
    · injection he with he
      subst he hres
      obtain ⟨n, a, b⟩ := located_text .compileError "unsupported selection set as operation" p contents pos
        (some "QLC does not support a plain selection set as an operation.")
      refine ⟨_, n, ?_, import_texts (ext := ext) (ω := ω) hs, a, rfl⟩
      rw [← b]
      simp [CompileResult.texts, CompileResult.messages, IrError.toMsg]
    · cases he
    · cases he

/-- **C84.** A definition on a type that is not an object, interface or union is reported at its start, after
the texts about the imports. -/
theorem C84_wrong_root_type_as_printed
    (h : compileFile ω fuel ext cfg schema w p = some (.done r))
    (hr : w.read p = .ok contents) (hp : ext.parse contents = .ok [d])
    (hs : addImported w cfg fuel p contents ⟨[], []⟩ = some (.done st)) (P : String)
    (hP : rootType d = some P) (hcomp : ¬ IsComposite schema P) :
    ∃ imports n, r.texts = imports ++ [n.text] ∧ ImportTexts ext w cfg p contents imports ∧
      WrongTypeNotice schema p.display contents (startOf d) P n ∧ r.world = w := by
  obtain ⟨res, ws, hc, hcase⟩ := fileMessages_of h hr hp hs
  have hfo : fieldsOf schema P = none := by
    unfold IsComposite at hcomp
    cases hf : fieldsOf schema P with
    | none => rfl
    | some x => rw [hf] at hcomp; simp at hcomp
  have hres : res = .error [conditionError schema P (startOf d)] ∧ ws = [] := by
    cases d with
    | selectionSet pos items => simp [rootType] at hP
    | operation kw pos name vars dirs items =>
      have hn : (opNames kw).1 = P := by cases kw <;> simpa [rootType, opNames] using hP
      simp only [Operation.compile, hn, new_error hfo, Option.some.injEq, Prod.mk.injEq] at hc
      exact ⟨hc.1.symm, hc.2.symm⟩
    | fragment f =>
      have hn : f.typeCond = P := by simpa [rootType] using hP
      simp only [Operation.compile, hn, new_error hfo, Option.some.injEq, Prod.mk.injEq] at hc
      exact ⟨hc.1.symm, hc.2.symm⟩
  obtain ⟨rfl, rfl⟩ := hres
  rcases hcase with ⟨es', he, hres⟩ | ⟨op, e, he, _⟩ | ⟨op, c, he, _⟩
  · injection he with he
    subst he hres
    obtain ⟨n, a, b⟩ := conditionError_notice ext.dist p contents (startOf d) P hcomp
    refine ⟨_, n, ?_, import_texts (ext := ext) (ω := ω) hs, a, rfl⟩
    rw [← b]
    simp [CompileResult.texts, CompileResult.messages]
  · cases he
  · cases he

/-- **C84.** If the selections of a definition are valid but not all its variables can be used, the first
variable that cannot be used is reported, after the texts about the imports and before the warnings. -/
theorem C84_wrong_variable_as_printed (hcon : Consistent schema)
    (h : compileFile ω fuel ext cfg schema w p = some (.done r))
    (hr : w.read p = .ok contents) (hp : ext.parse contents = .ok [d])
    (hs : addImported w cfg fuel p contents ⟨[], []⟩ = some (.done st)) (P : String)
    (hP : rootType d = some P) (hcomp : IsComposite schema P)
    (hfr : frags = (parseForeignFragments ω ext p st.imports st.messages).1)
    (hval : Valid schema frags P (itemsOf d))
    (hbad : ¬ ∀ v ∈ varsOf d, SupportedVarType v.type ∧ KnownTypeName schema (baseName v.type)) :
    ∃ imports good v rest n warnings, varsOf d = good ++ v :: rest ∧
      (∀ x ∈ good, SupportedVarType x.type ∧ KnownTypeName schema (baseName x.type)) ∧
      VariableNotice schema p.display contents v n ∧
      r.texts = imports ++ [n.text] ++ warnings ∧ ImportTexts ext w cfg p contents imports ∧
      WarningTexts schema frags cfg.showDeprecationWarnings p.display contents P (itemsOf d) warnings ∧
      r.world = w := by
  obtain ⟨res, ws, hc, hcase⟩ := fileMessages_of h hr hp hs
  rw [← hfr] at hc
  rcases compile_spec ω fuel _ hcon d res ws P hP hc with ⟨h1, _⟩ | ⟨_, es, h2, _, h4, h5⟩
  · exact absurd hcomp h1
  have hes : es = [] := by simpa using h2.1.trans ((check_nil_iff hcon P _).2 hval)
  obtain ⟨coll, _, hfin⟩ := h5 hes
  unfold finish at hfin
  cases hv : tryBuildVariableIr schema (varsOf d) with
  | ok vs =>
    exfalso
    apply hbad
    rw [hv] at hfin
    obtain ⟨_, _, _, _, hgood⟩ := (C07_compiles_iff_valid ω fuel _ hcon d res ws hc).1 ⟨_, hfin⟩
    exact hgood
  | error e =>
    rw [hv] at hfin
    simp only at hfin
    unfold tryBuildVariableIr at hv
    split at hv
    · cases hv
    · split at hv
      · rename_i e' he
        injection hv with hv
        subst hv
        obtain ⟨good, v, rest, g1, g2, g3⟩ := seqE_map_error _ _ _ he
        obtain ⟨n, a, b⟩ := variable_notice p contents v e' g3
        subst hfin
        rcases hcase with ⟨es', he', hres⟩ | ⟨op, e, he', _⟩ | ⟨op, c, he', _⟩
        · injection he' with he'
          subst he' hres
          refine ⟨_, good, v, rest, n, _, g1, fun x hx => (C03_variable_accepted_iff schema x).1 (g2 x hx), a,
            ?_, import_texts (ext := ext) (ω := ω) hs,
            warning_texts (p := p) (contents := contents) hcon hP hcomp hc, rfl⟩
          rw [← b]
          simp [CompileResult.texts, CompileResult.messages, IrError.toMsg]
        · cases he'
        · cases he'
      · cases hv

/-- **C84.** If the definition is valid, one of three things is printed: the texts about the imports and the
warnings, when the file is written; only that the file could not be written and why; or the texts about the
imports, the warnings and one more text, which can only happen if some interface or union of the schema has no
possible object type. -/
theorem C84_valid_definition_as_printed (hcon : Consistent schema)
    (h : compileFile ω fuel ext cfg schema w p = some (.done r))
    (hr : w.read p = .ok contents) (hp : ext.parse contents = .ok [d])
    (hs : addImported w cfg fuel p contents ⟨[], []⟩ = some (.done st)) (P : String)
    (hP : rootType d = some P) (hcomp : IsComposite schema P)
    (hfr : frags = (parseForeignFragments ω ext p st.imports st.messages).1)
    (hval : Valid schema frags P (itemsOf d))
    (hgood : ∀ v ∈ varsOf d, SupportedVarType v.type ∧ KnownTypeName schema (baseName v.type)) :
    ∃ imports warnings, ImportTexts ext w cfg p contents imports ∧
      WarningTexts schema frags cfg.showDeprecationWarnings p.display contents P (itemsOf d) warnings ∧
      ((∃ rep, r.result = .ok rep ∧ w.writeErr (w.resolve (outputPath p)) = none ∧
          r.texts = imports ++ warnings) ∨
       (∃ e left, w.writeErr (w.resolve (outputPath p)) = some (e, left) ∧
          r.texts = ["error: could not write `" ++ (outputPath p).display ++ "`: " ++ e]) ∨
       (¬ Spec.Inhabited schema ∧ r.world = w ∧ r.texts = imports ++ warnings ++
          ["program error: could not determine possiblities for complex type"])) := by
  obtain ⟨res, ws, hc, hcase⟩ := fileMessages_of h hr hp hs
  rw [← hfr] at hc
  refine ⟨_, _, import_texts (ext := ext) (ω := ω) hs,
    warning_texts (p := p) (contents := contents) hcon hP hcomp hc, ?_⟩
  obtain ⟨op, rfl⟩ := (C07_compiles_iff_valid ω fuel _ hcon d res ws hc).2 ⟨P, hP, hcomp, hval, hgood⟩
  rcases hcase with ⟨es', he', _⟩ | ⟨op', e, he', hir, hres⟩ | ⟨op', c, he', hir, h1, h2⟩
  · cases he'
  · injection he' with he'
    subst he' hres
    refine .inr (.inr ⟨?_, rfl, ?_⟩)
    · intro hin
      obtain ⟨op2, c, e1, e2⟩ := (C68_generated_iff_valid ω fuel _ cfg.toTsConfig hcon hin d _ ws hc).2
        ⟨P, hP, hcomp, hval, hgood⟩
      injection e1 with e1
      subst e1
      rw [hir] at e2
      cases e2
    · obtain ⟨_, _, ht, hfin⟩ := compiled_tree hcon hP hc
      have := compileIr_err hir (fun vs hvs => variables_known (by rw [← hvs]; exact (finish_ok hfin).2.2))
      subst this
      simp only [CompileResult.texts, CompileResult.messages, List.map_append, List.map_cons, List.map_nil]
      congr 1
  · cases hw : w.writeErr (w.resolve (outputPath p)) with
    | none =>
      refine .inl ⟨_, h1 hw, rfl, ?_⟩
      simp [CompileResult.texts, CompileResult.messages, h1 hw]
    | some x =>
      obtain ⟨e, left⟩ := x
      refine .inr (.inl ⟨e, left, rfl, ?_⟩)
      simp only [CompileResult.texts, CompileResult.messages, h2 e left hw, List.map_cons, List.map_nil]
      congr 1
      rw [show Msg.render .plain (Msg.ioError "write" e (outputPath p)) = _ from render_bare .compileError _]
      apply str_eq
      simp [Notice.text, Notice.lines, joinWith, levelWord]

end OneFile

/-! ### The theorems applied -/

namespace Demo

/-- A file system with the one file `/r/q.graphql`. -/
def oneFile (text : String) : World where
  resolve := Path.display
  disk := fun id => if id = "/r/q.graphql" then .ok text else .error "missing"
  writeErr := fun _ => none

/-- A parser with a fixed result, and an edit distance that finds `nope` close to `node`. -/
def fixedParse (x : Except String (List Definition)) : Ext where
  parse := fun _ => x
  dist := fun a b => if a = "nope" ∧ b = "node" then 1 else 9

/-- What is printed about the one file. -/
def printed (schema : Schema) (text : String) (x : Except String (List Definition)) : Option (List String) :=
  match compileFile .inOrder 9 (fixedParse x) Demo.cfg schema (oneFile text) qPath with
  | some (.done r) => some r.texts
  | _ => none

/-- `query {⏎  nope⏎  ... on Nope { id }⏎}`. -/
def badText : String := "query {\n  nope\n  ... on Nope { id }\n}"

/-- Its parsed form. -/
def badDef : Definition := .operation .query ⟨1, 1⟩ none [] []
  [leaf 2 3 "nope", .inline ⟨3, 7⟩ (some "Nope") [] [leaf 3 17 "id"]]

/-- `query {⏎  viewer { old }⏎}`. -/
def oldText : String := "query {\n  viewer { old }\n}"

/-- Its parsed form. -/
def oldDef : Definition := .operation .query ⟨1, 1⟩ none [] []
  [.field ⟨2, 3⟩ none "viewer" [] [] [leaf 2 12 "old"]]

/-- `query ($a: Int, $b: [[Int]!], $c: Nope) {⏎  count⏎}`. -/
def varText : String := "query ($a: Int, $b: [[Int]!], $c: Nope) {\n  count\n}"

/-- Its parsed form. -/
def varDef : Definition := .operation .query ⟨1, 1⟩ none
  [⟨⟨1, 8⟩, "a", .named "Int", none⟩, ⟨⟨1, 17⟩, "b", .list (.nonNull (.list (.named "Int"))), none⟩,
   ⟨⟨1, 31⟩, "c", .named "Nope", none⟩] [] [leaf 2 3 "count"]

/-- `query ($c: Nope) {⏎  count⏎}`. -/
def varText2 : String := "query ($c: Nope) {\n  count\n}"

/-- Its parsed form. -/
def varDef2 : Definition := .operation .query ⟨1, 1⟩ none
  [⟨⟨1, 8⟩, "c", .named "Nope", none⟩] [] [leaf 2 3 "count"]

end Demo

theorem printed_iff {sch : Schema} {text : String} {x : Except String (List Definition)} {ts : List String}
    (h : Demo.printed sch text x = some ts) :
    ∃ r, compileFile .inOrder 9 (Demo.fixedParse x) Demo.cfg sch (Demo.oneFile text) Demo.qPath =
      some (.done r) ∧ r.texts = ts := by
  unfold Demo.printed at h
  split at h
  · rename_i r hr
    injection h with h
    exact ⟨r, hr, h⟩
  · cases h

/-- What C82 describes, on a file with two mistakes; the second text names no file. -/
theorem C82_demo : Demo.printed Demo.schema Demo.badText (.ok [Demo.badDef]) = some
    ["error: unknown field `nope`\n --> /r/q.graphql:2:3\n  |\n2 |   nope\n  |   ^\n  = help: Check the fields of `Query`. Did you mean one of the following: `node`?",
     "program error: failed lookup of type `Nope`"] := by decide +kernel

/-- That file meets the hypotheses of C82. -/
example : ∃ r, compileFile .inOrder 9 (Demo.fixedParse (.ok [Demo.badDef])) Demo.cfg Demo.schema
      (Demo.oneFile Demo.badText) Demo.qPath = some (.done r) ∧
    (Demo.oneFile Demo.badText).read Demo.qPath = .ok Demo.badText ∧
    addImported (Demo.oneFile Demo.badText) Demo.cfg 9 Demo.qPath Demo.badText ⟨[], []⟩ =
      some (.done ⟨[], []⟩) ∧
    rootType Demo.badDef = some "Query" ∧ IsComposite Demo.schema "Query" ∧
    ¬ Valid Demo.schema [] "Query" (itemsOf Demo.badDef) := by
  obtain ⟨r, h, _⟩ := printed_iff C82_demo
  refine ⟨r, h, rfl, rfl, rfl, rfl, ?_⟩
  intro h
  obtain ⟨f, hf, _⟩ := h "Query" _ (Demo.leaf 2 3 "nope") (.here (by simp [itemsOf, Demo.badDef]))
  have : fieldOf Demo.schema "Query" "nope" = none := rfl
  rw [this] at hf
  simp at hf

/-- What C83 describes, on a file that uses a deprecated field. -/
theorem C83_demo : Demo.printed Demo.schema Demo.oldText (.ok [Demo.oldDef]) = some
    ["warning: use of deprecated field `old` on type `User`\n --> /r/q.graphql:2:12\n  |\n2 |   viewer { old }\n  |            ^"] := by
  decide +kernel

/-- Two definitions in a file. -/
theorem C84_several_demo : Demo.printed Demo.schema "fragment F on Node { name }\n\nfragment F on Node { name }"
    (.ok [.fragment Demo.fragF, .fragment { Demo.fragF with pos := ⟨3, 1⟩ }]) = some
    ["error: multi definition files unsupported\n --> /r/q.graphql:3:1\n  |\n3 | fragment F on Node { name }\n  | ^\n  = help: QLC does not support documents with more than one fragment, query or mutation per file. Move this definition to a seperate file and import it instead."] := by
  decide +kernel

/-- **C84, a defect.** What is printed about an empty file does not say which file is empty. -/
theorem C84_empty_file_witness : Demo.printed Demo.schema "" (.ok []) = some
    ["error: missing defintion in the document"] := by decide +kernel

/-- **C84, a defect.** A list of lists with non-null inner lists is an unsupported type as much as `[[Int]]`,
but is reported as a probable bug of the program; the later wrong variable `$c` is not reported. -/
theorem C84_list_of_lists_witness : Demo.printed Demo.schema Demo.varText (.ok [Demo.varDef]) = some
    ["program error: failed to process variable `b`\n --> /r/q.graphql:1:17\n  |\n1 | query ($a: Int, $b: [[Int]!], $c: Nope) {\n  |                 ^\n  = help: This is most likely a bug in QLC or some unsupported variable type. Please report a bug!"] := by
  decide +kernel

/-- **C84, a defect.** The text about a variable of unknown type gives the name of the type as the name of
the variable. -/
theorem C84_unknown_variable_type_witness :
    Demo.printed Demo.schema Demo.varText2 (.ok [Demo.varDef2]) = some
    ["error: unknown type for variable `Nope`\n --> /r/q.graphql:1:8\n  |\n1 | query ($c: Nope) {\n  |        ^"] := by
  decide +kernel

/-- **C84, a defect.** What is printed when a selected interface has no possible type names no file. -/
theorem C84_no_possible_type_witness :
    Demo.printed Demo.voidSchema "query Q {\n  node { id }\n}" (.ok [Demo.voidQuery]) = some
    ["program error: could not determine possiblities for complex type"] := by decide +kernel

/-- A plain selection set. -/
theorem C84_selection_set_demo :
    Demo.printed Demo.schema "{ count }" (.ok [.selectionSet ⟨1, 1⟩ [Demo.leaf 1 3 "count"]]) = some
    ["error: unsupported selection set as operation\n --> /r/q.graphql:1:1\n  |\n1 | { count }\n  | ^\n  = help: QLC does not support a plain selection set as an operation."] := by
  decide +kernel

/-- A fragment on an enum. -/
theorem C84_wrong_root_demo :
    Demo.printed Demo.schema "fragment F on Role {\n  x\n}"
      (.ok [.fragment ⟨⟨1, 1⟩, "F", "Role", [], [Demo.leaf 2 3 "x"]⟩]) = some
    ["error: unexpected selection on field of type `Role`\n --> /r/q.graphql:1:1\n  |\n1 | fragment F on Role {\n  | ^\n  = help: This field is not a complex type with selections. Did you accidentally place the curlies on this field?"] := by
  decide +kernel

/-- **C84, a defect.** If the globals file cannot be written, the text names the root directory instead of the
globals file. -/
theorem C84_globals_write_error_names_root (ω : Hash) (fuel : Nat) (cfg : CompileConfig) (schema : Schema)
    (w w' : World) (rootPath : Path) (used : List String) (text e : String) (left : Option String)
    (r : Except Msg Unit)
    (h : compileGlobalTypesFile ω fuel cfg schema w rootPath used = some (r, w')) (hne : used ≠ [])
    (hc : compileGlobals ω fuel cfg.toTsConfig schema used = some (.ok text))
    (hw : w.writeErr (w.resolve (globalsPath cfg rootPath)) = some (e, left)) :
    ∃ m, r = .error m ∧ m.render .plain = "error: could not write `" ++ rootPath.display ++ "`: " ++ e := by
  unfold compileGlobalTypesFile World.write at h
  have : used.isEmpty = false := by
    cases used with
    | nil => exact absurd rfl hne
    | cons a l => rfl
  simp only [this, hc, hw, Bool.false_eq_true, if_false] at h
  refine ⟨.ioError "write" e rootPath, ?_, ?_⟩
  · cases left <;> (simp only [Option.some.injEq, Prod.mk.injEq] at h; exact h.1.symm)
  · rw [show Msg.render .plain (Msg.ioError "write" e rootPath) = _ from render_bare .compileError _]
    apply str_eq
    simp [Notice.text, Notice.lines, joinWith, levelWord]

/-- A file system on which nothing can be written: the used enum is valid, but the globals file is not
written, and the text names the directory `/r`. -/
example : ((compileGlobalTypesFile .inOrder 5 Demo.cfg Demo.schema
      { Demo.world with writeErr := fun _ => some ("disk full", none) } ⟨true, ["r"]⟩ ["Role"]).map
    (fun x => match x.1 with | .error m => m.render .plain | .ok _ => "")) =
    some "error: could not write `/r`: disk full" := by decide +kernel

end Qlc
