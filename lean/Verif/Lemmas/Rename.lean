import Verif.Spec.Rename
import Verif.Lemmas.Emit
/-
Compiling selections with renamed fragments, and generating code under another name (for C116).
-/
set_option autoImplicit false

namespace Qlc
open Spec

/-! ### Selections -/

/-- Two outcomes of a fallible computation that agree but for names of fragments and positions. -/
def ResSim (ρ : String → String) : Except (List IrError) Unit → Except (List IrError) Unit → Prop
  | .ok _, .ok _ => True
  | .error es, .error es' => es'.map (errorAbout id) = es.map (errorAbout ρ)
  | _, _ => False

/-- Two passes over selection sets that agree but for names of fragments and positions. -/
structure CollSim (ρ : String → String) (c c' : Collected) : Prop where
  parent : c'.parent = c.parent
  warnings : c'.warnings.map warningAbout = c.warnings.map warningAbout
  result : ResSim ρ c.result c'.result

/-- Both out of fuel, or related. -/
def OptSim {α β : Type} (R : α → β → Prop) : Option α → Option β → Prop
  | none, none => True
  | some a, some b => R a b
  | _, _ => False

structure LoopSim (ρ : String → String) (s s' : LoopSt) : Prop where
  errors : s'.errors.map (errorAbout id) = s.errors.map (errorAbout ρ)
  parent : s'.parent = s.parent
  warnings : s'.warnings.map warningAbout = s.warnings.map warningAbout

def FlowSim (ρ : String → String) : Flow → Flow → Prop
  | .next s, .next s' => LoopSim ρ s s'
  | .ret e s, .ret e' s' => errorAbout id e' = errorAbout ρ e ∧ s'.parent = s.parent ∧
      s'.warnings.map warningAbout = s.warnings.map warningAbout
  | _, _ => False

def RecSim (ρ : String → String) (rec rec' : CollectFn) : Prop :=
  ∀ js items items' p ws ws', RenamedSels ρ items items' →
    ws'.map warningAbout = ws.map warningAbout →
    OptSim (CollSim ρ) (rec js items p ws) (rec' js items' p ws')

/-- Both fail with errors about the same, or both succeed with the same. -/
def ExSim {α : Type} (ρ : String → String) : Except IrError α → Except IrError α → Prop
  | .ok a, .ok b => b = a
  | .error e, .error e' => errorAbout id e' = errorAbout ρ e
  | _, _ => False

theorem errorAbout_self (ρ : String → String) : ∀ {e : IrError}, (∀ n p l, e ≠ .unknownFragment n p l) →
    errorAbout id e = errorAbout ρ e
  | .unknownFragment n p l, h => absurd rfl (h n p l)
  | .selectionSetAsOperationUnsupported _, _ => rfl
  | .missingTypeConditionOnInlineFragment _, _ => rfl
  | .selectionSetOnWrongType _ _, _ => rfl
  | .missingSelectionSetOnType _ _, _ => rfl
  | .unknownField _ _ _ _, _ => rfl
  | .variable _, _ => rfl
  | .missingType _, _ => rfl
  | .unexpectedComplexTraversal _, _ => rfl
  | .inputObjectOnSelection _ _, _ => rfl
  | .mixedTerminalAndComplexFields _ _, _ => rfl

theorem new_sim (ρ : String → String) (schema : Schema) (n : String) (pos pos' : Pos) :
    ExSim ρ (CTrav.new schema n pos) (CTrav.new schema n pos') := by
  unfold CTrav.new
  cases schema.getType n with
  | none => rfl
  | some t => simp only; cases t.definition <;> rfl

/-- The error is one of merging. -/
def IsMixed (e : IrError) : Prop := ∃ a b, e = .mixedTerminalAndComplexFields a b

theorem foldE_err {α σ : Type} {f : σ → α → Except IrError σ} {l : List α}
    (hf : ∀ a ∈ l, ∀ s e, f s a = .error e → IsMixed e) :
    ∀ {s : σ} {e : IrError}, foldE f s l = .error e → IsMixed e := by
  induction l with
  | nil => intro s e h; simp [foldE] at h
  | cons a l ih =>
    intro s e h
    unfold foldE at h
    cases ha : f s a with
    | error e' =>
      rw [ha] at h
      injection h with h
      subst h
      exact hf a (by simp) _ _ ha
    | ok s' =>
      rw [ha] at h
      exact ih (fun b hb => hf b (by simp [hb])) h

theorem uInsert_err {id : FieldId} {field : SField} {trav : Trav} {merge : Trav → Except IrError Trav}
    (hm : ∀ t e, merge t = .error e → IsMixed e) : ∀ {u : List FEntry} {e : IrError},
    uInsert id field trav merge u = .error e → IsMixed e
  | [], e, h => by simp [uInsert] at h
  | .mk id' f' t' :: rest, e, h => by
    unfold uInsert at h
    split at h
    · cases hh : merge t' with
      | error e' => rw [hh] at h; injection h with h; subst h; exact hm _ _ hh
      | ok t => rw [hh] at h; simp at h
    · cases hh : uInsert id field trav merge rest with
      | error e' => rw [hh] at h; injection h with h; subst h; exact uInsert_err hm hh
      | ok t => rw [hh] at h; simp at h

theorem updateObj_err {T : String} {f : List FEntry → Except IrError (List FEntry)}
    (hf : ∀ u e, f u = .error e → IsMixed e) : ∀ {os : List Obj} {e : IrError},
    updateObj T f os = .error e → IsMixed e
  | [], e, h => by simp [updateObj] at h
  | .mk T' u :: rest, e, h => by
    unfold updateObj at h
    split at h
    · cases hh : f u with
      | error e' => rw [hh] at h; injection h with h; subst h; exact hf _ _ hh
      | ok t => rw [hh] at h; simp at h
    · cases hh : updateObj T f rest with
      | error e' => rw [hh] at h; injection h with h; subst h; exact updateObj_err hf hh
      | ok t => rw [hh] at h; simp at h

mutual
theorem travMerge_err (ω : Hash) : ∀ (t s : Trav) (e : IrError), Trav.merge ω t s = .error e → IsMixed e
  | .complex oc, .complex sc, e, h => by
    unfold Trav.merge at h
    cases hh : CTrav.merge ω oc sc with
    | error e' => rw [hh] at h; injection h with h; subst h; exact cMerge_err ω oc sc _ hh
    | ok c => rw [hh] at h; simp at h
  | .terminal otn, .complex sc, e, h => by
    unfold Trav.merge at h; injection h with h; exact ⟨_, _, h.symm⟩
  | .terminal _, .terminal stn, e, h => by unfold Trav.merge at h; simp at h
  | .complex oc, .terminal stn, e, h => by
    unfold Trav.merge at h; injection h with h; exact ⟨_, _, h.symm⟩
theorem cMerge_err (ω : Hash) : ∀ (c s : CTrav) (e : IrError), CTrav.merge ω c s = .error e → IsMixed e
  | .mk _ _ objs, .mk tn lk sobjs, e, h => by
    unfold CTrav.merge at h
    split at h
    · rename_i e' hh
      injection h with h
      subst h
      refine foldE_err (fun m hm s e he => ?_) hh
      have hm := (ω.isPerm _ _).mem_iff.1 hm
      exact updateObj_err (fun u e h => objMergers_err ω objs m hm u e h) he
    · simp at h
theorem objMergers_err (ω : Hash) : ∀ (os : List Obj), ∀ m ∈ objMergers ω os, ∀ u e,
    m.2 u = .error e → IsMixed e
  | [], m, hm, _, _, _ => by unfold objMergers at hm; simp at hm
  | .mk T fs :: rest, m, hm, u, e, h => by
    unfold objMergers at hm
    rcases List.mem_cons.1 hm with rfl | hm
    · simp only at h
      refine foldE_err (fun f hf s e he => ?_) h
      have hf := (ω.isPerm _ _).mem_iff.1 hf
      exact entryMergers_err ω fs f hf s e he
    · exact objMergers_err ω rest m hm u e h
theorem entryMergers_err (ω : Hash) : ∀ (fs : List FEntry), ∀ f ∈ entryMergers ω fs, ∀ u e,
    f u = .error e → IsMixed e
  | [], f, hf, _, _, _ => by unfold entryMergers at hf; simp at hf
  | .mk id fld t :: rest, f, hf, u, e, h => by
    unfold entryMergers at hf
    rcases List.mem_cons.1 hf with rfl | hf
    · exact uInsert_err (fun s e h => travMerge_err ω t s e h) h
    · exact entryMergers_err ω rest f hf u e h
end

theorem insertAll_err {ω : Hash} {id : FieldId} {field : SField} {t : Trav} {c : CTrav} {e : IrError}
    (h : CTrav.insertAll ω id field t c = .error e) : IsMixed e := by
  unfold CTrav.insertAll at h
  split at h
  · rename_i e' hh
    injection h with h
    subst h
    exact foldE_err (fun T _ s e he => updateObj_err (fun u e h => uInsert_err (travMerge_err ω t) h) he) hh
  · simp at h

theorem IsMixed.same {e : IrError} (h : IsMixed e) (ρ : String → String) :
    errorAbout id e = errorAbout ρ e := by
  obtain ⟨a, b, rfl⟩ := h; rfl

theorem renamedSels_isEmpty {ρ : String → String} {items items' : List Selection}
    (h : RenamedSels ρ items items') : items'.isEmpty = items.isEmpty := by cases h <;> rfl

section
variable {ρ : String → String} {ω : Hash} {ctx ctx' : Ctx}

theorem clone_sim (self : CTrav) (n : String) (pos pos' : Pos) (js : JumpState) {ws ws' : List Warning}
    (hw : ws'.map warningAbout = ws.map warningAbout) :
    match self.cloneForTypeSpread ω ctx.schema n pos js ws, self.cloneForTypeSpread ω ctx.schema n pos' js ws' with
    | .ok (c, v), .ok (c', v') => c' = c ∧ v'.map warningAbout = v.map warningAbout
    | .error e, .error e' => errorAbout id e' = errorAbout ρ e
    | _, _ => False := by
  have hn := new_sim ρ ctx.schema n pos pos'
  unfold CTrav.cloneForTypeSpread
  cases h1 : CTrav.new ctx.schema n pos with
  | error e =>
    cases h2 : CTrav.new ctx.schema n pos' with
    | error e' => rw [h1, h2] at hn; exact hn
    | ok c' => rw [h1, h2] at hn; exact hn
  | ok c =>
    cases h2 : CTrav.new ctx.schema n pos' with
    | error e' => rw [h1, h2] at hn; exact hn
    | ok c' =>
      rw [h1, h2] at hn
      have hn : c' = c := hn
      subst hn
      refine ⟨rfl, ?_⟩
      split
      · rw [List.map_append, List.map_append, hw]; rfl
      · exact hw

theorem insertField_sim (hs : ctx'.schema = ctx.schema)
    (hd : ctx'.showDeprecationWarnings = ctx.showDeprecationWarnings) {rec rec' : CollectFn}
    (hrec : RecSim ρ rec rec') (pos pos' : Pos) (al : Option String) (name : String)
    {items items' : List Selection} (hi : RenamedSels ρ items items') (parent : CTrav) (js : JumpState)
    {ws ws' : List Warning} (hw : ws'.map warningAbout = ws.map warningAbout) :
    OptSim (CollSim ρ) (insertField ω ctx rec pos al name items parent js ws)
      (insertField ω ctx' rec' pos' al name items' parent js ws') := by
  unfold insertField
  cases hf : AMap.get? parent.lookup name with
  | none => exact ⟨rfl, hw, rfl⟩
  | some field =>
    have fin : ∀ (p : CTrav) (v v' : List Warning), v'.map warningAbout = v.map warningAbout →
        CollSim ρ ⟨.ok (), p, if ctx.showDeprecationWarnings && field.deprecated && js.isLocal then
            v ++ [.deprecatedFieldUse pos field.name parent.typeName] else v⟩
          ⟨.ok (), p, if ctx.showDeprecationWarnings && field.deprecated && js.isLocal then
            v' ++ [.deprecatedFieldUse pos' field.name parent.typeName] else v'⟩ := by
      intro p v v' hv
      refine ⟨rfl, ?_, trivial⟩
      simp only
      split
      · rw [List.map_append, List.map_append, hv]; rfl
      · exact hv
    simp only [renamedSels_isEmpty hi, hs, hd]
    cases items.isEmpty with
    | true =>
      cases hcx : field.type.definition.isComplex with
      | true => exact ⟨rfl, hw, rfl⟩
      | false =>
        simp only [if_true, Bool.false_eq_true, if_false]
        cases hins : parent.insertAll ω (al.getD name, field.type.name) field (.terminal field.type.name) with
        | error e =>
          exact ⟨rfl, hw, by
            show [errorAbout id e] = [errorAbout ρ e]
            rw [(insertAll_err hins).same ρ]⟩
        | ok p => exact fin p ws ws' hw
    | false =>
      cases hcx : field.type.definition.isComplex with
      | false => exact ⟨rfl, hw, rfl⟩
      | true =>
        simp only [if_true, Bool.false_eq_true, if_false]
        have hn := new_sim ρ ctx.schema field.type.name pos pos'
        cases h1 : CTrav.new ctx.schema field.type.name pos with
        | error e =>
          cases h2 : CTrav.new ctx.schema field.type.name pos' with
          | error e' =>
            rw [h1, h2] at hn
            have hn : errorAbout id e' = errorAbout ρ e := hn
            exact ⟨rfl, hw, by show [errorAbout id e'] = [errorAbout ρ e]; rw [hn]⟩
          | ok c' => rw [h1, h2] at hn; exact absurd hn id
        | ok sub =>
          cases h2 : CTrav.new ctx.schema field.type.name pos' with
          | error e' => rw [h1, h2] at hn; exact absurd hn id
          | ok sub' =>
            rw [h1, h2] at hn
            have hn : sub' = sub := hn
            subst hn
            have hr := hrec js items items' sub' ws ws' hi hw
            simp only
            cases h3 : rec js items sub' ws with
            | none =>
              cases h4 : rec' js items' sub' ws' with
              | none => trivial
              | some c' => rw [h3, h4] at hr; exact absurd hr id
            | some c =>
              cases h4 : rec' js items' sub' ws' with
              | none => rw [h3, h4] at hr; exact absurd hr id
              | some c' =>
                rw [h3, h4] at hr
                obtain ⟨k1, k2, k3⟩ : CollSim ρ c c' := hr
                simp only
                cases h5 : c.result with
                | error es =>
                  cases h6 : c'.result with
                  | ok u => rw [h5, h6] at k3; exact absurd k3 id
                  | error es' =>
                    rw [h5, h6] at k3
                    exact ⟨rfl, k2, k3⟩
                | ok u =>
                  cases h6 : c'.result with
                  | error es' => rw [h5, h6] at k3; exact absurd k3 id
                  | ok u' =>
                    simp only [k1]
                    cases hins : parent.insertAll ω (al.getD name, field.type.name) field (.complex c.parent) with
                    | error e =>
                      exact ⟨rfl, k2, by
                        show [errorAbout id e] = [errorAbout ρ e]
                        rw [(insertAll_err hins).same ρ]⟩
                    | ok p => exact fin p _ _ k2

theorem collectSpread_sim (hs : ctx'.schema = ctx.schema) {rec rec' : CollectFn}
    (hrec : RecSim ρ rec rec') (n : String) (pos pos' : Pos) {items items' : List Selection}
    (hi : RenamedSels ρ items items') (js : JumpState) {s s' : LoopSt} (h : LoopSim ρ s s') :
    OptSim (FlowSim ρ) (collectSpread ω ctx rec n pos items js s)
      (collectSpread ω ctx' rec' n pos' items' js s') := by
  obtain ⟨es₀, par, ws₀⟩ := s
  obtain ⟨es₀', par', ws₀'⟩ := s'
  obtain ⟨h1, h2, h3⟩ := h
  simp only at h1 h2 h3
  subst h2
  unfold collectSpread
  have hc := clone_sim (ρ := ρ) (ω := ω) (ctx := ctx) par' n pos pos' js h3
  simp only [hs]
  cases g1 : par'.cloneForTypeSpread ω ctx.schema n pos js ws₀ with
  | error e =>
    cases g2 : par'.cloneForTypeSpread ω ctx.schema n pos' js ws₀' with
    | ok c' => rw [g1, g2] at hc; exact absurd hc id
    | error e' =>
      rw [g1, g2] at hc
      have hc : errorAbout id e' = errorAbout ρ e := hc
      simp only
      show LoopSim ρ _ _
      split
      · refine ⟨?_, rfl, h3⟩
        simp only [List.map_append, List.map_cons, List.map_nil]
        rw [h1, hc]
      · exact ⟨h1, rfl, h3⟩
  | ok c =>
    cases g2 : par'.cloneForTypeSpread ω ctx.schema n pos' js ws₀' with
    | error e => rw [g1, g2] at hc; exact absurd hc id
    | ok c' =>
      obtain ⟨sub, ws⟩ := c
      obtain ⟨sub', ws'⟩ := c'
      rw [g1, g2] at hc
      obtain ⟨rfl, hw⟩ : sub' = sub ∧ ws'.map warningAbout = ws.map warningAbout := hc
      simp only
      have hr := hrec js items items' sub' ws ws' hi hw
      cases g3 : rec js items sub' ws with
      | none =>
        cases g4 : rec' js items' sub' ws' with
        | none => trivial
        | some c' => rw [g3, g4] at hr; exact absurd hr id
      | some c =>
        cases g4 : rec' js items' sub' ws' with
        | none => rw [g3, g4] at hr; exact absurd hr id
        | some c' =>
          rw [g3, g4] at hr
          obtain ⟨k1, k2, k3⟩ : CollSim ρ c c' := hr
          simp only
          cases g5 : c.result with
          | error es =>
            cases g6 : c'.result with
            | ok u => rw [g5, g6] at k3; exact absurd k3 id
            | error es' =>
              rw [g5, g6] at k3
              have k3 : es'.map (errorAbout id) = es.map (errorAbout ρ) := k3
              show LoopSim ρ _ _
              refine ⟨?_, rfl, k2⟩
              simp only
              split
              · rw [List.map_append, List.map_append, h1, k3]
              · exact h1
          | ok u =>
            cases g6 : c'.result with
            | error es' => rw [g5, g6] at k3; exact absurd k3 id
            | ok u' =>
              simp only [k1]
              cases g7 : CTrav.merge ω c.parent par' with
              | error e => exact ⟨(cMerge_err ω _ _ _ g7).same ρ, rfl, k2⟩
              | ok p => exact ⟨h1, rfl, k2⟩

theorem collectOne_sim (hs : ctx'.schema = ctx.schema)
    (hd : ctx'.showDeprecationWarnings = ctx.showDeprecationWarnings)
    (hf : RenamedScope ρ ctx.fragments ctx'.fragments) {rec rec' : CollectFn} (hrec : RecSim ρ rec rec')
    (js : JumpState) {sel sel' : Selection} (hsel : RenamedSel ρ sel sel') {s s' : LoopSt}
    (h : LoopSim ρ s s') :
    OptSim (FlowSim ρ) (collectOne ω ctx rec js sel s) (collectOne ω ctx' rec' js sel' s') := by
  cases hsel with
  | @field pos pos' al name args args' dirs dirs' items items' hi =>
    obtain ⟨h1, h2, h3⟩ := h
    unfold collectOne
    have hr := insertField_sim (ω := ω) hs hd hrec pos pos' al name hi s.parent js h3
    simp only [h2]
    cases g1 : insertField ω ctx rec pos al name items s.parent js s.warnings with
    | none =>
      cases g2 : insertField ω ctx' rec' pos' al name items' s.parent js s'.warnings with
      | none => trivial
      | some c' => rw [g1, g2] at hr; exact absurd hr id
    | some c =>
      cases g2 : insertField ω ctx' rec' pos' al name items' s.parent js s'.warnings with
      | none => rw [g1, g2] at hr; exact absurd hr id
      | some c' =>
        rw [g1, g2] at hr
        obtain ⟨k1, k2, k3⟩ : CollSim ρ c c' := hr
        simp only
        cases g5 : c.result with
        | error es =>
          cases g6 : c'.result with
          | ok u => rw [g5, g6] at k3; exact absurd k3 id
          | error es' =>
            rw [g5, g6] at k3
            have k3 : es'.map (errorAbout id) = es.map (errorAbout ρ) := k3
            show LoopSim ρ _ _
            refine ⟨?_, k1, k2⟩
            simp only
            rw [List.map_append, List.map_append, h1, k3]
        | ok u =>
          cases g6 : c'.result with
          | error es' => rw [g5, g6] at k3; exact absurd k3 id
          | ok u' => exact ⟨h1, k1, k2⟩
  | @«inline» pos pos' cond dirs dirs' items items' hi =>
    unfold collectOne
    cases cond with
    | none =>
      obtain ⟨h1, h2, h3⟩ := h
      refine ⟨?_, h2, h3⟩
      simp only [List.map_append]
      rw [h1]; rfl
    | some C => exact collectSpread_sim hs hrec C pos pos' hi _ h
  | @spread pos pos' name dirs dirs' =>
    unfold collectOne
    simp only
    have hn := hf name
    cases g1 : AMap.get? ctx.fragments name with
    | none =>
      cases g2 : AMap.get? ctx'.fragments (ρ name) with
      | some f' => rw [g1, g2] at hn; exact absurd hn id
      | none =>
        obtain ⟨h1, h2, h3⟩ := h
        refine ⟨?_, h2, h3⟩
        simp only [List.map_append]
        rw [h1]; rfl
    | some f =>
      cases g2 : AMap.get? ctx'.fragments (ρ name) with
      | none => rw [g1, g2] at hn; exact absurd hn id
      | some f' =>
        rw [g1, g2] at hn
        obtain ⟨_, k2, k3⟩ : RenamedFragment ρ f f' := hn
        simp only [k2]
        exact collectSpread_sim hs hrec f.typeCond pos pos' k3 _ h

theorem collectLoop_sim (hs : ctx'.schema = ctx.schema)
    (hd : ctx'.showDeprecationWarnings = ctx.showDeprecationWarnings)
    (hf : RenamedScope ρ ctx.fragments ctx'.fragments) {rec rec' : CollectFn} (hrec : RecSim ρ rec rec')
    (js : JumpState) (items : List Selection) : ∀ {items' : List Selection}, RenamedSels ρ items items' →
    ∀ {s s' : LoopSt}, LoopSim ρ s s' →
    OptSim (CollSim ρ) (collectLoop ω ctx rec js items s) (collectLoop ω ctx' rec' js items' s') := by
  induction items with
  | nil =>
    intro items' hi s s' h
    cases hi
    obtain ⟨h1, h2, h3⟩ := h
    unfold collectLoop
    refine ⟨h2, h3, ?_⟩
    simp only
    have he : s'.errors.isEmpty = s.errors.isEmpty := by
      have := congrArg List.length h1
      simp only [List.length_map] at this
      cases hh : s.errors <;> cases hh' : s'.errors <;> simp_all
    rw [he]
    split
    · trivial
    · exact h1
  | cons sel rest ih =>
    intro items' hi s s' h
    cases hi with
    | cons h1 h2 =>
      rename_i sel' rest'
      unfold collectLoop
      have hr := collectOne_sim (ω := ω) hs hd hf hrec js h1 h
      cases g1 : collectOne ω ctx rec js sel s with
      | none =>
        cases g2 : collectOne ω ctx' rec' js sel' s' with
        | none => trivial
        | some c' => rw [g1, g2] at hr; exact absurd hr id
      | some fl =>
        cases g2 : collectOne ω ctx' rec' js sel' s' with
        | none => rw [g1, g2] at hr; exact absurd hr id
        | some fl' =>
          rw [g1, g2] at hr
          cases fl with
          | next t =>
            cases fl' with
            | next t' => exact ih h2 hr
            | ret e t' => exact absurd hr id
          | ret e t =>
            cases fl' with
            | next t' => exact absurd hr id
            | ret e' t' =>
              obtain ⟨k1, k2, k3⟩ := hr
              exact ⟨k2, k3, by show [errorAbout id e'] = [errorAbout ρ e]; rw [k1]⟩

theorem collect_sim (hs : ctx'.schema = ctx.schema)
    (hd : ctx'.showDeprecationWarnings = ctx.showDeprecationWarnings)
    (hf : RenamedScope ρ ctx.fragments ctx'.fragments) (n : Nat) :
    RecSim ρ (collect ω ctx n) (collect ω ctx' n) := by
  induction n with
  | zero => intro js items items' p ws ws' hi hw; trivial
  | succ n ih =>
    intro js items items' p ws ws' hi hw
    exact collectLoop_sim hs hd hf ih js items hi ⟨rfl, rfl, hw⟩

end

/-! ### Variables -/

theorem buildVariable_sim (schema : Schema) {v v' : VarDef} (h : declared v = declared v') :
    match buildVariable schema v, buildVariable schema v' with
    | .ok a, .ok b => b = a
    | .error e, .error e' => varErrorAbout e' = varErrorAbout e
    | _, _ => False := by
  obtain ⟨pos, name, ty, df⟩ := v
  obtain ⟨pos', name', ty', df'⟩ := v'
  unfold declared at h
  injection h with h1 h2
  simp only at h1 h2
  subst h1 h2
  unfold buildVariable
  have hu : match unwrapVarDef ⟨pos, name, ty, df⟩, unwrapVarDef ⟨pos', name, ty, df'⟩ with
      | .ok a, .ok b => b = a
      | .error e, .error e' => varErrorAbout e' = varErrorAbout e
      | _, _ => False := by
    unfold unwrapVarDef
    rcases ty with n | t | t
    · rfl
    · rcases t with n | t | t
      · rfl
      · rfl
      · rcases t with n | t | t <;> rfl
    · rcases t with n | t | t
      · rfl
      · rcases t with n | t | t
        · rfl
        · rfl
        · rcases t with n | t | t <;> rfl
      · rfl
  cases g1 : unwrapVarDef ⟨pos, name, ty, df⟩ with
  | error e =>
    cases g2 : unwrapVarDef ⟨pos', name, ty, df'⟩ with
    | error e' => rw [g1, g2] at hu; exact hu
    | ok a' => rw [g1, g2] at hu; exact absurd hu id
  | ok a =>
    cases g2 : unwrapVarDef ⟨pos', name, ty, df'⟩ with
    | error e' => rw [g1, g2] at hu; exact absurd hu id
    | ok a' =>
      rw [g1, g2] at hu
      have hu : a' = a := hu
      subst hu
      obtain ⟨m, n⟩ := a'
      simp only
      have ht : match VariableType.ofName schema n pos, VariableType.ofName schema n pos' with
          | .ok a, .ok b => b = a
          | .error e, .error e' => varErrorAbout e' = varErrorAbout e
          | _, _ => False := by
        unfold VariableType.ofName
        by_cases e1 : n = "ID"
        · subst e1; rfl
        by_cases e2 : n = "String"
        · subst e2; rfl
        by_cases e3 : n = "Float"
        · subst e3; rfl
        by_cases e4 : n = "Int"
        · subst e4; rfl
        by_cases e5 : n = "Boolean"
        · subst e5; rfl
        simp only [e1, e2, e3, e4, e5, if_false]
        cases schema.getType n with
        | none => rfl
        | some t => rfl
      cases g3 : VariableType.ofName schema n pos with
      | error e =>
        cases g4 : VariableType.ofName schema n pos' with
        | error e' => rw [g3, g4] at ht; exact ht
        | ok t' => rw [g3, g4] at ht; exact absurd ht id
      | ok t =>
        cases g4 : VariableType.ofName schema n pos' with
        | error e' => rw [g3, g4] at ht; exact absurd ht id
        | ok t' =>
          rw [g3, g4] at ht
          have ht : t' = t := ht
          subst ht
          rfl

theorem seqVars_sim (schema : Schema) : ∀ {vs vs' : List VarDef}, vs.map declared = vs'.map declared →
    match seqE (vs.map (buildVariable schema)), seqE (vs'.map (buildVariable schema)) with
    | .ok a, .ok b => b = a
    | .error e, .error e' => varErrorAbout e' = varErrorAbout e
    | _, _ => False
  | [], [], _ => rfl
  | [], _ :: _, h => by simp at h
  | _ :: _, [], h => by simp at h
  | v :: vs, v' :: vs', h => by
    simp only [List.map_cons, List.cons.injEq] at h
    have h1 := buildVariable_sim schema h.1
    have h2 := seqVars_sim schema h.2
    simp only [List.map_cons]
    unfold seqE
    cases g1 : buildVariable schema v with
    | error e =>
      cases g2 : buildVariable schema v' with
      | error e' => rw [g1, g2] at h1; exact h1
      | ok a' => rw [g1, g2] at h1; exact absurd h1 id
    | ok a =>
      cases g2 : buildVariable schema v' with
      | error e' => rw [g1, g2] at h1; exact absurd h1 id
      | ok a' =>
        rw [g1, g2] at h1
        have h1 : a' = a := h1
        subst h1
        cases g3 : seqE (vs.map (buildVariable schema)) with
        | error e =>
          cases g4 : seqE (vs'.map (buildVariable schema)) with
          | error e' => rw [g3, g4] at h2; simp only [g3, g4]; exact h2
          | ok l' => rw [g3, g4] at h2; exact absurd h2 id
        | ok l =>
          cases g4 : seqE (vs'.map (buildVariable schema)) with
          | error e' => rw [g3, g4] at h2; exact absurd h2 id
          | ok l' =>
            rw [g3, g4] at h2
            have h2 : l' = l := h2
            subst h2
            simp only [g3, g4]

theorem variables_sim (schema : Schema) {vs vs' : List VarDef} (h : vs.map declared = vs'.map declared) :
    match tryBuildVariableIr schema vs, tryBuildVariableIr schema vs' with
    | .ok a, .ok b => b = a
    | .error e, .error e' => varErrorAbout e' = varErrorAbout e
    | _, _ => False := by
  unfold tryBuildVariableIr
  have hl : vs'.isEmpty = vs.isEmpty := by
    have := congrArg List.length h
    simp only [List.length_map] at this
    cases vs <;> cases vs' <;> simp_all
  rw [hl]
  cases hv : vs.isEmpty with
  | true => rfl
  | false =>
    simp only [Bool.false_eq_true, if_false]
    have h2 := seqVars_sim schema h
    cases g3 : seqE (vs.map (buildVariable schema)) with
    | error e =>
      cases g4 : seqE (vs'.map (buildVariable schema)) with
      | error e' => rw [g3, g4] at h2; exact h2
      | ok l' => rw [g3, g4] at h2; exact absurd h2 id
    | ok l =>
      cases g4 : seqE (vs'.map (buildVariable schema)) with
      | error e' => rw [g3, g4] at h2; exact absurd h2 id
      | ok l' =>
        rw [g3, g4] at h2
        have h2 : l' = l := h2
        subst h2
        rfl

end Qlc
