import Verif.Spec.Selections
import Verif.Lemmas.Basic
import Verif.Spec.Demo
/-
Property C09: errors and warnings point into the compiled definition.  Nothing is assumed about the schema.
-/
set_option autoImplicit false

namespace Qlc
open Spec

/-! ### Errors without a position -/

theorem foldE_error {ε α σ : Type} {f : σ → α → Except ε σ} {l : List α} {e : ε} :
    ∀ {s : σ}, foldE f s l = .error e → ∃ s' a, a ∈ l ∧ f s' a = .error e := by
  induction l with
  | nil => intro s h; simp [foldE] at h
  | cons a l ih =>
    intro s h
    unfold foldE at h
    cases hf : f s a with
    | error e' => rw [hf] at h; injection h with h; subst h; exact ⟨s, a, List.mem_cons_self .., hf⟩
    | ok s' =>
      rw [hf] at h
      obtain ⟨s'', a', h1, h2⟩ := ih h
      exact ⟨s'', a', List.mem_cons_of_mem _ h1, h2⟩

theorem uInsert_error {id : FieldId} {field : SField} {trav : Trav}
    {merge : Trav → Except IrError Trav} {e : IrError} :
    ∀ {u : List FEntry}, uInsert id field trav merge u = .error e → ∃ t, merge t = .error e
  | [], h => by simp [uInsert] at h
  | .mk id' field' trav' :: rest, h => by
    unfold uInsert at h
    split at h
    · cases hm : merge trav' with
      | error e' => rw [hm] at h; injection h with h; subst h; exact ⟨_, hm⟩
      | ok t => rw [hm] at h; simp at h
    · cases hm : uInsert id field trav merge rest with
      | error e' => rw [hm] at h; injection h with h; subst h; exact uInsert_error hm
      | ok t => rw [hm] at h; simp at h

theorem updateObj_error {T : String} {f : List FEntry → Except IrError (List FEntry)} {e : IrError} :
    ∀ {os : List Obj}, updateObj T f os = .error e → ∃ u, f u = .error e
  | [], h => by simp [updateObj] at h
  | .mk T' u :: rest, h => by
    unfold updateObj at h
    split at h
    · cases hm : f u with
      | error e' => rw [hm] at h; injection h with h; subst h; exact ⟨_, hm⟩
      | ok t => rw [hm] at h; simp at h
    · cases hm : updateObj T f rest with
      | error e' => rw [hm] at h; injection h with h; subst h; exact updateObj_error hm
      | ok t => rw [hm] at h; simp at h

mutual
theorem Trav.merge_error (ω : Hash) : ∀ (o s : Trav) (e : IrError), Trav.merge ω o s = .error e →
    errorPos e = none
  | .complex oc, .complex sc, e, h => by
    unfold Trav.merge at h
    cases hm : CTrav.merge ω oc sc with
    | error e' => rw [hm] at h; injection h with h; subst h; exact CTrav.merge_error ω oc sc _ hm
    | ok c => rw [hm] at h; simp at h
  | .terminal otn, .complex sc, e, h => by unfold Trav.merge at h; injection h with h; subst h; rfl
  | .terminal _, .terminal stn, e, h => by unfold Trav.merge at h; simp at h
  | .complex oc, .terminal stn, e, h => by unfold Trav.merge at h; injection h with h; subst h; rfl
theorem CTrav.merge_error (ω : Hash) : ∀ (o s : CTrav) (e : IrError), CTrav.merge ω o s = .error e →
    errorPos e = none
  | .mk _ _ objs, .mk tn lk sobjs, e, h => by
    unfold CTrav.merge at h
    split at h
    · rename_i e' hm
      injection h with h; subst h
      obtain ⟨s', m, hmem, hm⟩ := foldE_error hm
      obtain ⟨u, hu⟩ := updateObj_error hm
      exact objMergers_error ω objs m ((ω.isPerm _ _).mem_iff.1 hmem) u _ hu
    · simp at h
theorem objMergers_error (ω : Hash) : ∀ (objs : List Obj)
    (m : String × (List FEntry → Except IrError (List FEntry))), m ∈ objMergers ω objs →
    ∀ u e, m.2 u = .error e → errorPos e = none
  | [], m, hm => by unfold objMergers at hm; simp at hm
  | .mk T fs :: rest, m, hm => by
    unfold objMergers at hm
    rcases List.mem_cons.1 hm with rfl | hm
    · intro u e h
      obtain ⟨s', f, hf, hfe⟩ := foldE_error h
      exact entryMergers_error ω fs f ((ω.isPerm _ _).mem_iff.1 hf) s' e hfe
    · exact objMergers_error ω rest m hm
theorem entryMergers_error (ω : Hash) : ∀ (fs : List FEntry)
    (f : List FEntry → Except IrError (List FEntry)), f ∈ entryMergers ω fs →
    ∀ u e, f u = .error e → errorPos e = none
  | [], f, hf => by unfold entryMergers at hf; simp at hf
  | .mk id fl t :: rest, f, hf => by
    unfold entryMergers at hf
    rcases List.mem_cons.1 hf with rfl | hf
    · intro u e h
      obtain ⟨t', ht'⟩ := uInsert_error h
      exact Trav.merge_error ω t t' e ht'
    · exact entryMergers_error ω rest f hf
end

theorem insertAll_error {ω : Hash} {id : FieldId} {field : SField} {trav : Trav} {c : CTrav}
    {e : IrError} (h : c.insertAll ω id field trav = .error e) : errorPos e = none := by
  unfold CTrav.insertAll at h
  split at h
  · rename_i e' hm
    injection h with h; subst h
    obtain ⟨s', m, _, hm⟩ := foldE_error hm
    obtain ⟨u, hu⟩ := updateObj_error hm
    obtain ⟨t, ht⟩ := uInsert_error hu
    exact Trav.merge_error ω _ _ _ ht
  · simp at h

theorem new_error_pos {schema : Schema} {n : String} {pos : Pos} {e : IrError}
    (h : CTrav.new schema n pos = .error e) : errorPos e = none ∨ errorPos e = some pos := by
  unfold CTrav.new at h
  repeat' split at h
  all_goals first | (simp at h; done) | (injection h with h; subst h; simp [errorPos])

theorem seqE_error_mem {ε α : Type} {l : List (Except ε α)} {e : ε} (h : seqE l = .error e) :
    .error e ∈ l := by
  obtain ⟨as, rest, rfl⟩ := (seqE_error_iff l e).1 h
  simp

mutual
theorem typeIr_error (ω : Hash) : ∀ (t : Trav) (path : List String) (field : SField) (e : IrError),
    typeIrForField ω path field t = .error e → errorPos e = none
  | .terminal tn, path, field, e, h => by
    unfold typeIrForField at h
    split at h <;> first | (simp at h; done) | (injection h with h; subst h; rfl)
  | .complex c, path, field, e, h => by
    have hc := toIR_error ω c path
    unfold typeIrForField at h
    split at h <;> first
      | (simp at h; done)
      | (injection h with h; subst h; rfl)
      | (cases hm : CTrav.toIR ω path c with
         | error e' => rw [hm] at h; injection h with h; subst h; exact hc _ hm
         | ok ps => rw [hm] at h; simp at h)
theorem toIR_error (ω : Hash) : ∀ (c : CTrav) (path : List String) (e : IrError),
    CTrav.toIR ω path c = .error e → errorPos e = none
  | .mk _ _ objs, path, e, h => by
    unfold CTrav.toIR at h
    split at h
    · rename_i e' hm
      injection h with h; subst h
      exact objsToIR_error ω objs path _ ((ω.isPerm _ _).mem_iff.1 (seqE_error_mem hm))
    · simp at h
theorem objsToIR_error (ω : Hash) : ∀ (objs : List Obj) (path : List String) (e : IrError),
    .error e ∈ objsToIR ω path objs → errorPos e = none
  | [], path, e, h => by unfold objsToIR at h; simp at h
  | .mk T fs :: rest, path, e, h => by
    unfold objsToIR at h
    rcases List.mem_cons.1 h with h | h
    · split at h
      · rename_i e' hm
        injection h with h; subst h
        exact entriesToIR_error ω fs (T :: path) _ ((ω.isPerm _ _).mem_iff.1 (seqE_error_mem hm))
      · simp at h
    · exact objsToIR_error ω rest path e h
theorem entriesToIR_error (ω : Hash) : ∀ (fs : List FEntry) (path : List String) (e : IrError),
    .error e ∈ entriesToIR ω path fs → errorPos e = none
  | [], path, e, h => by unfold entriesToIR at h; simp at h
  | .mk id f t :: rest, path, e, h => by
    unfold entriesToIR at h
    rcases List.mem_cons.1 h with h | h
    · cases hm : typeIrForField ω (id.1 :: path) f t with
      | error e' => rw [hm] at h; injection h with h; subst h; exact typeIr_error ω t _ f _ hm
      | ok ty => rw [hm] at h; simp at h
    · exact entriesToIR_error ω rest path e h
end

/-! ### Collecting -/

/-- The error points into `ps`, if it points anywhere. -/
def ErrIn (ps : List Pos) (e : IrError) : Prop := ∀ p, errorPos e = some p → p ∈ ps

theorem ErrIn.of_none {ps : List Pos} {e : IrError} (h : errorPos e = none) : ErrIn ps e := by
  intro p hp; rw [h] at hp; simp at hp

theorem ErrIn.mono {ps qs : List Pos} {e : IrError} (h : ErrIn ps e) (hs : ∀ p ∈ ps, p ∈ qs) :
    ErrIn qs e := fun p hp => hs p (h p hp)

/-- New warnings point into `ps`; outside the compiled file there are none. -/
def WarnIn (js : JumpState) (ps : List Pos) (ws ws' : List Warning) : Prop :=
  if js.isLocal then ∃ nws, ws' = ws ++ nws ∧ ∀ w ∈ nws, warningPos w ∈ ps else ws' = ws

theorem WarnIn.refl {js : JumpState} {ps : List Pos} {ws : List Warning} : WarnIn js ps ws ws := by
  unfold WarnIn; split
  · exact ⟨[], by simp, by simp⟩
  · rfl

theorem WarnIn.trans {js : JumpState} {ps : List Pos} {a b c : List Warning}
    (h1 : WarnIn js ps a b) (h2 : WarnIn js ps b c) : WarnIn js ps a c := by
  unfold WarnIn at *
  split at h1
  · rename_i hl
    rw [if_pos hl] at h2 ⊢
    obtain ⟨n1, rfl, p1⟩ := h1
    obtain ⟨n2, rfl, p2⟩ := h2
    exact ⟨n1 ++ n2, by simp, by
      intro w hw
      rcases List.mem_append.1 hw with hw | hw
      · exact p1 w hw
      · exact p2 w hw⟩
  · rename_i hl
    rw [if_neg hl] at h2 ⊢
    rw [h2, h1]

theorem WarnIn.mono {js : JumpState} {ps qs : List Pos} {a b : List Warning} (h : WarnIn js ps a b)
    (hs : ∀ p ∈ ps, p ∈ qs) : WarnIn js qs a b := by
  unfold WarnIn at *
  split at h
  · rename_i hl
    rw [if_pos hl]
    obtain ⟨n, h1, h2⟩ := h
    exact ⟨n, h1, fun w hw => hs _ (h2 w hw)⟩
  · rename_i hl
    rw [if_neg hl]; exact h

/-- What one call does. -/
def PosOk (js : JumpState) (ps : List Pos) (ws : List Warning) (c : Collected) : Prop :=
  (js.isLocal = true → ∀ es, c.result = .error es → ∀ e ∈ es, ErrIn ps e) ∧
  WarnIn js ps ws c.warnings

def RecPos (rec : CollectFn) : Prop :=
  ∀ js items parent ws c, rec js items parent ws = some c → PosOk js (positionsSels items) ws c

theorem insertField_pos {ω : Hash} {ctx : Ctx} {rec : CollectFn} (hrec : RecPos rec) {pos : Pos}
    {al : Option String} {name : String} {items : List Selection} {parent : CTrav} {js : JumpState}
    {ws : List Warning} {c : Collected}
    (h : insertField ω ctx rec pos al name items parent js ws = some c) :
    PosOk js (pos :: positionsSels items) ws c := by
  have single : ∀ (e : IrError) (p : CTrav) (w : List Warning),
      (errorPos e = none ∨ errorPos e = some pos) → WarnIn js (pos :: positionsSels items) ws w →
      some (⟨.error [e], p, w⟩ : Collected) = some c → PosOk js (pos :: positionsSels items) ws c := by
    intro e p w he hw hc
    injection hc with hc; subst hc
    refine ⟨?_, hw⟩
    intro _ es hes e' he'
    injection hes with hes; subst hes
    rw [List.mem_singleton] at he'; subst he'
    intro q hq
    rcases he with he | he
    · rw [he] at hq; simp at hq
    · rw [he] at hq; injection hq with hq; subst hq; exact List.mem_cons_self ..
  have fin : ∀ (field : SField) (p : CTrav) (w : List Warning),
      WarnIn js (pos :: positionsSels items) ws w →
      some (⟨.ok (), p, if ctx.showDeprecationWarnings && field.deprecated && js.isLocal then
          w ++ [.deprecatedFieldUse pos field.name parent.typeName] else w⟩ : Collected) = some c →
      PosOk js (pos :: positionsSels items) ws c := by
    intro field p w hw hc
    injection hc with hc; subst hc
    refine ⟨by intro _ es hes; simp at hes, ?_⟩
    refine hw.trans ?_
    dsimp only
    split
    · rename_i hd
      have hl : js.isLocal = true := by simp only [Bool.and_eq_true] at hd; exact hd.2
      unfold WarnIn
      rw [if_pos hl]
      exact ⟨_, rfl, by intro w hw; rw [List.mem_singleton] at hw; subst hw; exact List.mem_cons_self ..⟩
    · exact .refl
  unfold insertField at h
  dsimp only at h
  split at h
  · exact single _ _ _ (.inr rfl) .refl h
  · rename_i field hf
    split at h
    · split at h
      · exact single _ _ _ (.inr rfl) .refl h
      · split at h
        · rename_i e he
          exact single _ _ _ (.inl (insertAll_error he)) .refl h
        · exact fin _ _ _ .refl h
    · split at h
      · split at h
        · rename_i e he
          exact single _ _ _ (new_error_pos he) .refl h
        · split at h
          · simp at h
          · rename_i sub _ c' hc'
            obtain ⟨h1, h2⟩ := hrec _ _ _ _ _ hc'
            have hm : ∀ p ∈ positionsSels items, p ∈ pos :: positionsSels items :=
              fun p hp => List.mem_cons_of_mem _ hp
            split at h
            · rename_i es hes
              injection h with h; subst h
              exact ⟨fun hl es' hes' e he => by
                injection hes' with hes'; subst hes'
                exact (h1 hl _ hes e he).mono hm, h2.mono hm⟩
            · split at h
              · rename_i e he
                exact single _ _ _ (.inl (insertAll_error he)) (h2.mono hm) h
              · exact fin _ _ _ (h2.mono hm) h
      · exact single _ _ _ (.inr rfl) .refl h

/-- What one iteration does. -/
def FlowPos (js : JumpState) (ps : List Pos) (s : LoopSt) : Flow → Prop
  | .next s' => (js.isLocal = true → ∃ nes, s'.errors = s.errors ++ nes ∧ ∀ e ∈ nes, ErrIn ps e) ∧
      WarnIn js ps s.warnings s'.warnings
  | .ret e s' => errorPos e = none ∧ WarnIn js ps s.warnings s'.warnings

theorem jumpInline_local (js : JumpState) : js.jumpInline.isLocal = js.isLocal := by
  cases js <;> rfl

theorem collectSpread_pos {ω : Hash} {ctx : Ctx} {rec : CollectFn} (hrec : RecPos rec) {C : String}
    {pos : Pos} {items : List Selection} {js newJs : JumpState} {ps : List Pos}
    (hl : js.isLocal = false → newJs = .fullyJumped) (hp : pos ∈ ps)
    (hps : newJs.isLocal = true → js.isLocal = true ∧ ∀ p ∈ positionsSels items, p ∈ ps)
    {s : LoopSt} {f : Flow} (h : collectSpread ω ctx rec C pos items newJs s = some f) :
    FlowPos js ps s f := by
  unfold collectSpread at h
  have hclone : ∀ sub ws, s.parent.cloneForTypeSpread ω ctx.schema C pos newJs s.warnings =
      .ok (sub, ws) → WarnIn js ps s.warnings ws := by
    intro sub ws hc
    unfold CTrav.cloneForTypeSpread at hc
    split at hc
    · simp at hc
    · dsimp only at hc
      injection hc with hc
      simp only [Prod.mk.injEq] at hc
      obtain ⟨_, rfl⟩ := hc
      cases hjl : js.isLocal with
      | false =>
        rw [hl hjl]
        simp only [JumpState.isFullyJumped, Bool.not_true, Bool.false_and, Bool.false_eq_true, if_false]
        exact .refl
      | true =>
        split
        · unfold WarnIn
          rw [if_pos hjl]
          exact ⟨_, rfl, by intro w hw; rw [List.mem_singleton] at hw; subst hw; exact hp⟩
        · exact .refl
  have hrecw : ∀ sub ws c, rec newJs items sub ws = some c → WarnIn js ps s.warnings ws →
      WarnIn js ps s.warnings c.warnings := by
    intro sub ws c hc hw
    refine hw.trans ?_
    obtain ⟨_, h2⟩ := hrec _ _ _ _ _ hc
    cases hn : newJs.isLocal with
    | true =>
      unfold WarnIn at h2
      rw [if_pos hn] at h2
      obtain ⟨hjl, hsub⟩ := hps hn
      unfold WarnIn
      rw [if_pos hjl]
      obtain ⟨nws, h3, h4⟩ := h2
      exact ⟨nws, h3, fun w hw => hsub _ (h4 w hw)⟩
    | false =>
      unfold WarnIn at h2
      rw [hn] at h2
      simp only [Bool.false_eq_true, if_false] at h2
      rw [h2]; exact .refl
  split at h
  · rename_i e he
    injection h with h; subst h
    have hep : errorPos e = none ∨ errorPos e = some pos := by
      unfold CTrav.cloneForTypeSpread at he
      split at he
      · rename_i e' he'
        injection he with he; subst he
        exact new_error_pos he'
      · simp at he
    refine ⟨?_, ?_⟩
    · intro _
      split
      · refine ⟨[e], rfl, ?_⟩
        intro e' he'
        rw [List.mem_singleton] at he'; subst he'
        intro q hq
        rcases hep with he | he
        · rw [he] at hq; simp at hq
        · rw [he] at hq; injection hq with hq; subst hq; exact hp
      · exact ⟨[], by simp, by simp⟩
    · split <;> exact .refl
  · rename_i sub ws hc
    split at h
    · simp at h
    · rename_i c hr
      have hw := hrecw _ _ _ hr (hclone _ _ hc)
      split at h
      · split at h
        · rename_i e he
          injection h with h; subst h
          exact ⟨CTrav.merge_error ω _ _ _ he, hw⟩
        · injection h with h; subst h
          exact ⟨fun _ => ⟨[], by simp, by simp⟩, hw⟩
      · rename_i es hes
        injection h with h; subst h
        refine ⟨?_, hw⟩
        intro _
        dsimp only
        split
        · rename_i hn
          refine ⟨es, rfl, ?_⟩
          intro e he
          exact ((hrec _ _ _ _ _ hr).1 hn es hes e he).mono (hps hn).2
        · exact ⟨[], by simp, by simp⟩

theorem collectOne_pos {ω : Hash} {ctx : Ctx} {rec : CollectFn} (hrec : RecPos rec) {js : JumpState}
    {sel : Selection} {s : LoopSt} {f : Flow} (h : collectOne ω ctx rec js sel s = some f) :
    FlowPos js (positionsSel sel) s f := by
  cases sel with
  | field pos al name args dirs items =>
    unfold collectOne at h
    unfold positionsSel
    dsimp only at h
    split at h
    · simp at h
    · rename_i c hc
      obtain ⟨h1, h2⟩ := insertField_pos hrec hc
      split at h
      · injection h with h; subst h
        exact ⟨fun _ => ⟨[], by simp, by simp⟩, h2⟩
      · rename_i es hes
        injection h with h; subst h
        exact ⟨fun hl => ⟨es, rfl, h1 hl es hes⟩, h2⟩
  | «inline» pos cond dirs items =>
    unfold collectOne at h
    unfold positionsSel
    cases cond with
    | none =>
      injection h with h; subst h
      exact ⟨fun _ => ⟨_, rfl, by
        intro e he; rw [List.mem_singleton] at he; subst he
        intro q hq; injection hq with hq; subst hq; exact List.mem_cons_self ..⟩, .refl⟩
    | some C =>
      refine collectSpread_pos hrec ?_ (List.mem_cons_self ..) ?_ h
      · intro hl
        unfold JumpState.jumpInline
        simp [hl]
      · intro hl
        rw [jumpInline_local] at hl
        exact ⟨hl, fun p hp => List.mem_cons_of_mem _ hp⟩
  | spread pos name dirs =>
    unfold collectOne at h
    unfold positionsSel
    dsimp only at h
    split at h
    · injection h with h; subst h
      exact ⟨fun _ => ⟨_, rfl, by
        intro e he; rw [List.mem_singleton] at he; subst he
        intro q hq; injection hq with hq; subst hq; exact List.mem_cons_self ..⟩, .refl⟩
    · refine collectSpread_pos hrec ?_ (List.mem_cons_self ..) ?_ h
      · intro hl
        unfold JumpState.jumpForeign
        simp [hl]
      · intro hl
        unfold JumpState.jumpForeign at hl
        split at hl <;> simp [JumpState.isLocal] at hl

theorem collectLoop_pos {ω : Hash} {ctx : Ctx} {rec : CollectFn} (hrec : RecPos rec) {js : JumpState} :
    ∀ {items : List Selection} {s : LoopSt} {c : Collected} {ps : List Pos} {ws : List Warning},
    (∀ p ∈ positionsSels items, p ∈ ps) → (js.isLocal = true → ∀ e ∈ s.errors, ErrIn ps e) →
    WarnIn js ps ws s.warnings → collectLoop ω ctx rec js items s = some c → PosOk js ps ws c
  | [], s, c, ps, ws, _, he, hw, h => by
    unfold collectLoop at h
    injection h with h; subst h
    refine ⟨?_, hw⟩
    intro hl es hes
    dsimp only at hes
    split at hes
    · simp at hes
    · injection hes with hes; subst hes; exact he hl
  | sel :: rest, s, c, ps, ws, hsub, he, hw, h => by
    have hsub1 : ∀ p ∈ positionsSel sel, p ∈ ps := fun p hp => hsub p (by
      unfold positionsSels; exact List.mem_append_left _ hp)
    have hsub2 : ∀ p ∈ positionsSels rest, p ∈ ps := fun p hp => hsub p (by
      unfold positionsSels; exact List.mem_append_right _ hp)
    unfold collectLoop at h
    split at h
    · simp at h
    · rename_i e s' ho
      injection h with h; subst h
      obtain ⟨h1, h2⟩ := collectOne_pos hrec ho
      refine ⟨?_, hw.trans (h2.mono hsub1)⟩
      intro _ es hes e' he'
      injection hes with hes; subst hes
      rw [List.mem_singleton] at he'; subst he'
      exact .of_none h1
    · rename_i s' ho
      obtain ⟨h1, h2⟩ := collectOne_pos hrec ho
      refine collectLoop_pos hrec hsub2 ?_ (hw.trans (h2.mono hsub1)) h
      intro hl e hee
      obtain ⟨nes, h3, h4⟩ := h1 hl
      rw [h3] at hee
      rcases List.mem_append.1 hee with hee | hee
      · exact he hl e hee
      · exact (h4 e hee).mono hsub1

theorem collect_pos (ω : Hash) (ctx : Ctx) (fuel : Nat) : RecPos (collect ω ctx fuel) := by
  induction fuel with
  | zero => intro js items parent ws c h; simp [collect] at h
  | succ n ih =>
    intro js items parent ws c h
    unfold collect at h
    exact collectLoop_pos ih (fun p hp => hp) (by intro _ e he; simp at he) .refl h

/-! ### C09 -/

theorem variable_error_pos {schema : Schema} {vars : List VarDef} {e : VarError}
    (h : tryBuildVariableIr schema vars = .error e) :
    ErrIn (vars.map VarDef.pos) (.variable e) := by
  unfold tryBuildVariableIr at h
  split at h
  · simp at h
  · split at h
    · rename_i e' hm
      injection h with h; subst h
      obtain ⟨v, hv, hve⟩ := List.mem_map.1 (seqE_error_mem hm)
      have hpos : errorPos (.variable e') = some v.pos := by
        unfold buildVariable at hve
        split at hve
        · rename_i e'' hu
          injection hve with hve; subst hve
          unfold unwrapVarDef at hu
          repeat' split at hu
          all_goals first | (simp at hu; done) | (injection hu with hu; subst hu; rfl)
        · rename_i m n hu
          split at hve
          · rename_i e'' ho
            injection hve with hve; subst hve
            unfold VariableType.ofName at ho
            repeat' split at ho
            all_goals first | (simp at ho; done) | (injection ho with ho; subst ho; rfl)
          · simp at hve
      intro p hp
      rw [hpos] at hp; injection hp with hp; subst hp
      exact List.mem_map.2 ⟨v, hv, rfl⟩
    · simp at h

theorem errIn_single {ps : List Pos} {e : IrError} (h : ErrIn ps e) :
    ∀ es, Except.error (ε := List IrError) (α := Operation) [e] = .error es → ∀ e' ∈ es, ErrIn ps e' := by
  intro es hes e' he'
  injection hes with hes; subst hes
  rw [List.mem_singleton] at he'; subst he'
  exact h

theorem warnIn_nil {ps : List Pos} {ws : List Warning} (h : WarnIn .rootLocal ps [] ws) :
    ∀ w ∈ ws, warningPos w ∈ ps := by
  unfold WarnIn at h
  obtain ⟨nws, rfl, h2⟩ := h
  intro w hw
  exact h2 w (by simpa using hw)

/-- **C09.** Whatever the schema, the document, the imported fragments and the hash order: every position
in a reported error, and every position in a warning, is the position of a construct written in the
compiled definition. -/
theorem C09_positions_in_definition (ω : Hash) (fuel : Nat) (ctx : Ctx) (d : Definition)
    (r : Except (List IrError) Operation) (ws : List Warning)
    (h : Operation.compile ω fuel ctx d = some (r, ws)) :
    (∀ es, r = .error es → ∀ e ∈ es, ∀ p, errorPos e = some p → p ∈ positionsOf d) ∧
    (∀ w ∈ ws, warningPos w ∈ positionsOf d) := by
  cases d with
  | selectionSet pos items =>
    simp only [Operation.compile, Option.some.injEq, Prod.mk.injEq] at h
    obtain ⟨rfl, rfl⟩ := h
    refine ⟨errIn_single ?_, by simp⟩
    intro p hp
    injection hp with hp; subst hp
    exact List.mem_cons_self ..
  | operation kw pos name vars dirs items =>
    have hs : ∀ p ∈ positionsSels items, p ∈ positionsOf (.operation kw pos name vars dirs items) :=
      fun p hp => by unfold positionsOf; simp [hp]
    have hv : ∀ p ∈ vars.map VarDef.pos, p ∈ positionsOf (.operation kw pos name vars dirs items) :=
      fun p hp => by unfold positionsOf; exact List.mem_append_left _ (List.mem_cons_of_mem _ hp)
    have hp0 : pos ∈ positionsOf (.operation kw pos name vars dirs items) := by
      unfold positionsOf; simp
    simp only [Operation.compile] at h
    split at h
    · rename_i e he
      simp only [Option.some.injEq, Prod.mk.injEq] at h
      obtain ⟨rfl, rfl⟩ := h
      refine ⟨errIn_single ?_, by simp⟩
      intro p hp
      rcases new_error_pos he with h1 | h1
      · rw [h1] at hp; simp at hp
      · rw [h1] at hp; injection hp with hp; subst hp; exact hp0
    · split at h
      · simp at h
      · rename_i c hc
        obtain ⟨h1, h2⟩ := collect_pos ω ctx fuel _ _ _ _ _ hc
        have hw := warnIn_nil (h2.mono hs)
        split at h
        · rename_i es hes
          simp only [Option.some.injEq, Prod.mk.injEq] at h
          obtain ⟨rfl, rfl⟩ := h
          refine ⟨?_, hw⟩
          intro es' hes' e he
          injection hes' with hes'; subst hes'
          exact (h1 rfl _ hes e he).mono hs
        · split at h
          · rename_i e he
            simp only [Option.some.injEq, Prod.mk.injEq] at h
            obtain ⟨rfl, rfl⟩ := h
            exact ⟨errIn_single (.of_none (toIR_error ω _ _ _ he)), hw⟩
          · split at h
            · rename_i e he
              simp only [Option.some.injEq, Prod.mk.injEq] at h
              obtain ⟨rfl, rfl⟩ := h
              exact ⟨errIn_single ((variable_error_pos he).mono hv), hw⟩
            · simp only [Option.some.injEq, Prod.mk.injEq] at h
              obtain ⟨rfl, rfl⟩ := h
              exact ⟨by intro es hes; simp at hes, hw⟩
  | fragment f =>
    have hs : ∀ p ∈ positionsSels f.items, p ∈ positionsOf (.fragment f) :=
      fun p hp => by unfold positionsOf; simp [hp]
    have hp0 : f.pos ∈ positionsOf (.fragment f) := by unfold positionsOf; simp
    simp only [Operation.compile] at h
    split at h
    · rename_i e he
      simp only [Option.some.injEq, Prod.mk.injEq] at h
      obtain ⟨rfl, rfl⟩ := h
      refine ⟨errIn_single ?_, by simp⟩
      intro p hp
      rcases new_error_pos he with h1 | h1
      · rw [h1] at hp; simp at hp
      · rw [h1] at hp; injection hp with hp; subst hp; exact hp0
    · split at h
      · simp at h
      · rename_i c hc
        obtain ⟨h1, h2⟩ := collect_pos ω ctx fuel _ _ _ _ _ hc
        have hw := warnIn_nil (h2.mono hs)
        split at h
        · rename_i es hes
          simp only [Option.some.injEq, Prod.mk.injEq] at h
          obtain ⟨rfl, rfl⟩ := h
          refine ⟨?_, hw⟩
          intro es' hes' e he
          injection hes' with hes'; subst hes'
          exact (h1 rfl _ hes e he).mono hs
        · split at h
          · rename_i e he
            simp only [Option.some.injEq, Prod.mk.injEq] at h
            obtain ⟨rfl, rfl⟩ := h
            exact ⟨errIn_single (.of_none (toIR_error ω _ _ _ he)), hw⟩
          · simp only [Option.some.injEq, Prod.mk.injEq] at h
            obtain ⟨rfl, rfl⟩ := h
            exact ⟨by intro es hes; simp at hes, hw⟩

/-- An imported fragment with an unknown field and a spread that never matches: the spreading query, whose
own constructs are on lines 10 to 12, gets messages for lines 11 and 12 only. -/
def Demo.foreignCtx : Ctx := ⟨Demo.schema, true, [("G", ⟨⟨1, 1⟩, "G", "User", [],
  [Demo.leaf 2 1 "nope", Demo.leaf 3 1 "old", .inline ⟨4, 1⟩ (some "Bot") [] [Demo.leaf 5 1 "id"]]⟩)]⟩

example : (Operation.compile .inOrder 5 Demo.foreignCtx
    (.operation .query ⟨10, 1⟩ none [] [] [.spread ⟨11, 1⟩ "G" [], Demo.leaf 12 1 "nope"])).map
      (fun x => (match x.1 with | .ok _ => [] | .error es => es.map errorPos, x.2.map warningPos)) =
    some ([some ⟨12, 1⟩], [⟨11, 1⟩]) := by decide +kernel

end Qlc
