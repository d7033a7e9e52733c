import Verif.Spec.Report
import Verif.Props.Files
import Verif.Lemmas.Emit
import Mathlib.Data.List.Perm.Basic
/-
Messages up to the order of listed names.
-/
set_option autoImplicit false

namespace Qlc
open Spec

/-- Two messages of the same level that are printed alike. -/
def MsgSim (m m' : Msg) : Prop :=
  m.level = m'.level ∧ ∀ paint, ∃ t t', m.render paint = t ∧ m'.render paint = t' ∧ SameUpToList t t'

theorem MsgSim.rfl' (m : Msg) : MsgSim m m := ⟨rfl, fun _ => ⟨_, _, rfl, rfl, .same _⟩⟩

theorem sameUpToList_append {t t' : String} (h : SameUpToList t t') (after : String) :
    SameUpToList (t ++ after) (t' ++ after) := by
  cases h with
  | same => exact .same _
  | listed b a hp =>
    have := SameUpToList.listed b (a ++ after) hp
    simpa [String.append_assoc] using this

/-- Two lists of messages that are printed alike, up to order. -/
def MsgsSim (l l' : List Msg) : Prop := ∃ us, us.Perm l' ∧ List.Forall₂ MsgSim l us

theorem MsgsSim.refl (l : List Msg) : MsgsSim l l :=
  ⟨l, .refl _, List.forall₂_same.2 (fun m _ => MsgSim.rfl' m)⟩

theorem MsgsSim.of_forall {l l' : List Msg} (h : List.Forall₂ MsgSim l l') : MsgsSim l l' :=
  ⟨l', .refl _, h⟩

theorem MsgsSim.of_perm {l l' : List Msg} (h : l.Perm l') : MsgsSim l l' :=
  ⟨l, h, List.forall₂_same.2 (fun m _ => MsgSim.rfl' m)⟩

theorem MsgsSim.append {a b c d : List Msg} (h : MsgsSim a b) (h' : MsgsSim c d) :
    MsgsSim (a ++ c) (b ++ d) := by
  obtain ⟨u, h1, h2⟩ := h
  obtain ⟨v, h3, h4⟩ := h'
  exact ⟨u ++ v, h1.append h3, List.rel_append h2 h4⟩

theorem MsgsSim.perm {a b c d : List Msg} (h1 : a.Perm b) (h : MsgsSim b c) (h2 : c.Perm d) :
    MsgsSim a d := by
  obtain ⟨u, h3, h4⟩ := h
  obtain ⟨v, h5, h6⟩ := List.perm_comp_forall₂ h1 h4
  exact ⟨v, h6.trans (h3.trans h2), h5⟩

theorem MsgsSim.flatMap {α : Type} {f g : α → List Msg} : ∀ (l : List α),
    (∀ a ∈ l, MsgsSim (f a) (g a)) → MsgsSim (l.flatMap f) (l.flatMap g)
  | [], _ => MsgsSim.refl _
  | a :: l, h => by
    simp only [List.flatMap_cons]
    exact (h a (by simp)).append (MsgsSim.flatMap l (fun b hb => h b (by simp [hb])))

theorem MsgsSim.levels {l l' : List Msg} (h : MsgsSim l l') :
    (l.map Msg.level).Perm (l'.map Msg.level) := by
  obtain ⟨u, h1, h2⟩ := h
  refine List.Perm.trans ?_ (h1.map _)
  clear h1
  induction h2 with
  | nil => exact .refl _
  | cons hab _ ih =>
    simp only [List.map_cons, hab.1]
    exact ih.cons _

theorem countMsgs_levels : ∀ l : List Msg, countMsgs l =
    ((l.map Msg.level).count .compileWarning,
      (l.map Msg.level).count .compileError + (l.map Msg.level).count .programError)
  | [] => rfl
  | m :: l => by
    simp only [countMsgs, countMsgs_levels l, List.map_cons]
    cases m.level <;> simp [List.count_cons] <;> omega

theorem MsgsSim.report {l l' : List Msg} (h : MsgsSim l l') (paint : Paint) :
    SameReport (printExitInfo paint l).printed (printExitInfo paint l').printed ∧
      (printExitInfo paint l).code = (printExitInfo paint l').code := by
  have hc : countMsgs l = countMsgs l' := by
    rw [countMsgs_levels, countMsgs_levels]
    have := h.levels
    simp only [this.count_eq]
  obtain ⟨u, h1, h2⟩ := h
  unfold printExitInfo
  rw [hc]
  refine ⟨?_, rfl⟩
  refine ⟨u.map (fun m => m.render paint ++ "\n\n") ++ _ ++ _,
    ((h1.map _).append_right _).append_right _,
    List.rel_append (List.rel_append ?_ (List.forall₂_same.2 (fun t _ => .same t)))
      (List.forall₂_same.2 (fun t _ => .same t))⟩
  clear h1 hc
  induction h2 with
  | nil => exact .nil
  | cons hab _ ih =>
    obtain ⟨t, t', e1, e2, hs⟩ := hab.2 paint
    refine .cons ?_ ih
    simp only [e1, e2]
    exact sameUpToList_append hs _

/-! ### One message -/

theorem located_sim (level : Level) (message : String) (path : Path) (contents : String) (pos : Pos)
    (before after : String) {names names' : List String} (h : names.Perm names') :
    MsgSim (.located level message path contents pos
        (some (before ++ "`" ++ joinWith "`, `" names ++ "`" ++ after)))
      (.located level message path contents pos
        (some (before ++ "`" ++ joinWith "`, `" names' ++ "`" ++ after))) := by
  refine ⟨rfl, fun paint => ?_⟩
  have key : ∃ pre : String, ∀ t, (Msg.located level message path contents pos (some t)).render paint =
      pre ++ t := by
    refine ⟨(Msg.located level message path contents pos (some "")).render paint, fun t => ?_⟩
    simp only [Msg.render, Msg.located, Source.render, Location.withHelp, Location.lineEncoding,
      Location.colon, Location.ofContentsAndPos, Option.map_some, Option.getD_some, String.append_assoc, String.append_empty, String.empty_append]
  obtain ⟨pre, hpre⟩ := key
  refine ⟨_, _, hpre _, hpre _, ?_⟩
  have := SameUpToList.listed (pre ++ before) after h
  simpa [String.append_assoc] using this

theorem suggestion_sim (dist : String → String → Nat) (message : String) (path : Path)
    (contents : String) (pos : Pos) (name before other : String) {possible possible' : List String}
    (h : possible.Perm possible') :
    MsgSim (.located .compileError message path contents pos
        (some (before ++ (similarHelp dist name possible).getD other)))
      (.located .compileError message path contents pos
        (some (before ++ (similarHelp dist name possible').getD other))) := by
  have hp := h.filter (fun p => decide (dist name p < 3))
  unfold similarHelp
  simp only
  by_cases he : (possible.filter (fun p => decide (dist name p < 3))).isEmpty = true
  · have he' : (possible'.filter (fun p => decide (dist name p < 3))).isEmpty = true := by
      rw [List.isEmpty_iff] at he ⊢
      rw [he] at hp
      exact List.nil_perm.1 hp
    rw [if_pos he, if_pos he']
    exact MsgSim.rfl' _
  · have he' : ¬ (possible'.filter (fun p => decide (dist name p < 3))).isEmpty = true := by
      rw [List.isEmpty_iff] at he ⊢
      intro e
      rw [e] at hp
      exact he (List.perm_nil.1 hp)
    rw [if_neg he, if_neg he']
    have := located_sim .compileError message path contents pos
      (before ++ " Did you mean one of the following: ") "?" hp
    have e1 : ∀ s : String, before ++ (" Did you mean one of the following: `" ++ s ++ "`?") =
        before ++ " Did you mean one of the following: " ++ "`" ++ s ++ "`" ++ "?" := by
      intro s
      have a : " Did you mean one of the following: `" = " Did you mean one of the following: " ++ "`" := rfl
      have b : "`?" = "`" ++ "?" := rfl
      rw [a, b]
      simp only [String.append_assoc]
    simp only [Option.getD_some, e1]
    exact this

section Compile
variable {schema : Schema} {frags frags' : Frags}

theorem error_sim (dist : String → String → Nat) (contents : String) (path : Path)
    (hkeys : (AMap.keys frags).Perm (AMap.keys frags')) {e e' : IrError}
    (hs : e.strip = e'.strip) (h : GoodNames schema frags e) (h' : GoodNames schema frags' e') :
    MsgSim (e.toMsg dist contents path) (e'.toMsg dist contents path) := by
  cases e with
  | unknownFragment n p ns =>
    cases e' with
    | unknownFragment n' p' ns' =>
      simp only [IrError.strip, IrError.unknownFragment.injEq, and_true] at hs
      obtain ⟨rfl, rfl⟩ := hs
      exact suggestion_sim dist _ path contents p n _ _ (h.trans (hkeys.trans h'.symm))
    | _ => simp [IrError.strip] at hs
  | unknownField t f p ns =>
    cases e' with
    | unknownField t' f' p' ns' =>
      simp only [IrError.strip, IrError.unknownField.injEq, and_true] at hs
      obtain ⟨rfl, rfl, rfl⟩ := hs
      obtain ⟨fl, h1, h2⟩ := h
      obtain ⟨fl', h1', h2'⟩ := h'
      rw [h1] at h1'
      injection h1' with h1'
      subst h1'
      exact suggestion_sim dist _ path contents p f _ _ (h2.trans h2'.symm)
    | _ => simp [IrError.strip] at hs
  | _ =>
    cases e' <;> simp only [IrError.strip, reduceCtorEq] at hs
    all_goals (rw [hs]; exact MsgSim.rfl' _)

theorem warning_sim (contents : String) (path : Path) {e e' : Warning} (hs : e.norm = e'.norm) :
    MsgSim (e.toMsg contents path) (e'.toMsg contents path) := by
  cases e with
  | overFragmentNarrowing p ts C =>
    cases e' with
    | overFragmentNarrowing p' ts' C' =>
      simp only [Warning.norm, Warning.overFragmentNarrowing.injEq] at hs
      obtain ⟨rfl, h, rfl⟩ := hs
      have hp : ts.Perm ts' := (sortStr_perm ts).symm.trans (h ▸ sortStr_perm ts')
      have := located_sim .compileWarning ("fragment over narrowing with type `" ++ C ++ "`") path contents p
        "The parent types of this spread are limited to " (", making spreading `" ++ C ++ "` extraneous.") hp
      have e1 : ∀ s : String, "The parent types of this spread are limited to `" ++ s ++
          "`, making spreading `" ++ C ++ "` extraneous." =
          "The parent types of this spread are limited to " ++ "`" ++ s ++ "`" ++
            (", making spreading `" ++ C ++ "` extraneous.") := by
        intro s
        have a : "The parent types of this spread are limited to `" =
          "The parent types of this spread are limited to " ++ "`" := rfl
        have b : "`, making spreading `" = "`" ++ ", making spreading `" := rfl
        rw [a, b]
        simp only [String.append_assoc]
      simp only [Warning.toMsg, e1]
      exact this
    | _ => simp [Warning.norm] at hs
  | deprecatedFieldUse p f t =>
    cases e' with
    | deprecatedFieldUse p' f' t' =>
      simp only [Warning.norm] at hs
      rw [hs]
      exact MsgSim.rfl' _
    | _ => simp [Warning.norm] at hs

theorem forall₂_of_map {α β : Type} {f : α → β} {R : α → α → Prop} :
    ∀ {l l' : List α}, l.map f = l'.map f → (∀ a ∈ l, ∀ b ∈ l', f a = f b → R a b) → List.Forall₂ R l l'
  | [], [], _, _ => .nil
  | [], _ :: _, h, _ => by simp at h
  | _ :: _, [], h, _ => by simp at h
  | a :: l, b :: l', h, hR => by
    simp only [List.map_cons, List.cons.injEq] at h
    exact .cons (hR a (by simp) b (by simp) h.1)
      (forall₂_of_map h.2 (fun x hx y hy => hR x (by simp [hx]) y (by simp [hy])))

theorem forall₂_map {α β : Type} {f : α → β} {R : β → β → Prop} {l l' : List α}
    (h : List.Forall₂ (fun a b => R (f a) (f b)) l l') : List.Forall₂ R (l.map f) (l'.map f) := by
  induction h with
  | nil => exact .nil
  | cons a _ ih => exact .cons a ih

mutual
theorem checkSel_congr (h : ∀ n, AMap.get? frags n = AMap.get? frags' n) (loc : Bool) (P : String) :
    ∀ s : Selection, checkSel schema frags loc P s = checkSel schema frags' loc P s
  | .field pos al name args dirs items => by
    unfold checkSel
    cases fieldOf schema P name with
    | none => rfl
    | some f => simp only [checkSels_congr h loc f.type.name items]
  | .inline pos none dirs items => by unfold checkSel; rfl
  | .inline pos (some C) dirs items => by
    unfold checkSel
    simp only [checkSels_congr h loc C items]
  | .spread pos name dirs => by unfold checkSel; rw [h]
theorem checkSels_congr (h : ∀ n, AMap.get? frags n = AMap.get? frags' n) (loc : Bool) (P : String) :
    ∀ ss : List Selection, checkSels schema frags loc P ss = checkSels schema frags' loc P ss
  | [] => by unfold checkSels; rfl
  | s :: rest => by
    unfold checkSels
    rw [checkSel_congr h loc P s, checkSels_congr h loc P rest]
end

mutual
theorem warnSel_congr (h : ∀ n, AMap.get? frags n = AMap.get? frags' n) (showDep : Bool) (P : String)
    (N : List String) : ∀ s : Selection, warnSel schema frags showDep P N s = warnSel schema frags' showDep P N s
  | .field pos al name args dirs items => by
    unfold warnSel
    cases fieldOf schema P name with
    | none => rfl
    | some f =>
      simp only [checkSels_congr h true f.type.name items,
        warnSels_congr h showDep f.type.name (possibleNames schema f.type.name) items]
  | .inline pos none dirs items => by unfold warnSel; rfl
  | .inline pos (some C) dirs items => by
    unfold warnSel
    simp only [warnSels_congr h showDep C (narrowed schema C N) items]
  | .spread pos name dirs => by unfold warnSel; rw [h]
theorem warnSels_congr (h : ∀ n, AMap.get? frags n = AMap.get? frags' n) (showDep : Bool) (P : String)
    (N : List String) : ∀ ss : List Selection,
      warnSels schema frags showDep P N ss = warnSels schema frags' showDep P N ss
  | [] => by unfold warnSels; rfl
  | s :: rest => by
    unfold warnSels
    rw [warnSel_congr h showDep P N s, warnSels_congr h showDep P N rest]
end

/-- The errors and warnings of a definition, under two hash orders and two orders of the same fragments. -/
theorem diagnostics_sim (dist : String → String → Nat) (contents : String) (path : Path)
    (hget : ∀ n, AMap.get? frags n = AMap.get? frags' n)
    (hkeys : (AMap.keys frags).Perm (AMap.keys frags'))
    (ω ω' : Hash) (fuel fuel' : Nat) (showDep : Bool) (hcon : Consistent schema) (d : Definition)
    {r r' : Except (List IrError) Operation} {ws ws' : List Warning}
    (h : Operation.compile ω fuel ⟨schema, showDep, frags⟩ d = some (r, ws))
    (h' : Operation.compile ω' fuel' ⟨schema, showDep, frags'⟩ d = some (r', ws')) :
    (∀ es es', r = .error es → r' = .error es' →
      List.Forall₂ MsgSim (es.map (IrError.toMsg dist contents path))
        (es'.map (IrError.toMsg dist contents path))) ∧
    List.Forall₂ MsgSim (ws.map (Warning.toMsg contents path)) (ws'.map (Warning.toMsg contents path)) := by
  have hw : ws.map Warning.norm = ws'.map Warning.norm → List.Forall₂ MsgSim
      (ws.map (Warning.toMsg contents path)) (ws'.map (Warning.toMsg contents path)) := fun e =>
    forall₂_map (forall₂_of_map e (fun a _ b _ hab => warning_sim contents path hab))
  have same : ∀ l : List Msg, List.Forall₂ MsgSim l l := fun l =>
    List.forall₂_same.2 (fun m _ => MsgSim.rfl' m)
  cases hP : rootType d with
  | none =>
    cases d with
    | selectionSet pos items =>
      simp only [Operation.compile, Option.some.injEq, Prod.mk.injEq] at h h'
      obtain ⟨rfl, rfl⟩ := h
      obtain ⟨rfl, rfl⟩ := h'
      refine ⟨?_, .nil⟩
      intro es es' he he'
      injection he with he; injection he' with he'
      subst he; subst he'
      exact same _
    | operation kw pos name vars dirs items => cases kw <;> simp [rootType] at hP
    | fragment f => simp [rootType] at hP
  | some P =>
    rcases compile_spec ω fuel showDep hcon d r ws P hP h with ⟨h1, h2, h3⟩ | ⟨hc, es, h2, h3, h4, h5⟩
    · have hnone : ∀ (pos : Pos), CTrav.new schema P pos = .error (conditionError schema P pos) := by
        intro pos
        refine new_error ?_ pos
        unfold IsComposite at h1
        cases hf : fieldsOf schema P with
        | none => rfl
        | some _ => rw [hf] at h1; simp at h1
      have hsame : Operation.compile ω fuel ⟨schema, showDep, frags⟩ d =
          Operation.compile ω' fuel' ⟨schema, showDep, frags'⟩ d := by
        cases d with
        | selectionSet pos items => rfl
        | operation kw pos name vars dirs items =>
          have : (opNames kw).1 = P := by
            cases kw <;> simp only [rootType, Option.some.injEq] at hP <;> rw [← hP] <;> rfl
          simp only [Operation.compile, this, hnone]
        | fragment f =>
          simp only [rootType, Option.some.injEq] at hP
          simp only [Operation.compile, hP, hnone]
      rw [h, h'] at hsame
      simp only [Option.some.injEq, Prod.mk.injEq] at hsame
      obtain ⟨rfl, rfl⟩ := hsame
      refine ⟨?_, same _⟩
      intro es es' he he'
      rw [he] at he'
      injection he' with he'
      subst he'
      exact same _
    · rcases compile_spec ω' fuel' showDep hcon d r' ws' P hP h' with ⟨h1, _⟩ | ⟨_, es', h2', h3', h4', h5'⟩
      · exact absurd hc h1
      rw [← checkSels_congr hget] at h2'
      rw [← warnSels_congr hget] at h3'
      refine ⟨?_, hw (by rw [h3, h3'])⟩
      have hes : es.map IrError.strip = es'.map IrError.strip := by rw [h2.1, h2'.1]
      intro fs fs' he he'
      by_cases hn : es = []
      · have hn' : es' = [] := by subst hn; simpa using hes.symm
        obtain ⟨coll, _, hr⟩ := h5 hn
        obtain ⟨coll', _, hr'⟩ := h5' hn'
        rw [he] at hr; rw [he'] at hr'
        unfold finish at hr hr'
        cases hv : tryBuildVariableIr schema (varsOf d) with
        | error e =>
          rw [hv] at hr hr'
          injection hr with hr; injection hr' with hr'
          rw [hr, hr']
          exact same _
        | ok vs => rw [hv] at hr; simp at hr
      · have hn' : es' ≠ [] := by
          rintro rfl
          simp at hes
          exact hn hes
        have a := h4 hn; have b := h4' hn'
        rw [he] at a; rw [he'] at b
        injection a with a; injection b with b
        subst a; subst b
        exact forall₂_map (forall₂_of_map hes (fun x hx y hy hxy =>
          error_sim dist contents path hkeys hxy (h2.2 x hx) (h2'.2 y hy)))

end Compile

end Qlc
