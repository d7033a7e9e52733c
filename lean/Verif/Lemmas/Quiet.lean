import Verif.Model.Main
/-
Switching the warnings about deprecated fields off only drops these warnings: from selection sets to compile results.
-/
set_option autoImplicit false

namespace Qlc

/-- A warning about a deprecated field. -/
def Warning.isDeprecation : Warning → Bool
  | .deprecatedFieldUse .. => true
  | .overFragmentNarrowing .. => false

/-- The other warnings. -/
def quiet (ws : List Warning) : List Warning := ws.filter (fun x => !x.isDeprecation)

theorem quiet_append (a b : List Warning) : quiet (a ++ b) = quiet a ++ quiet b := List.filter_append ..

/-- The same without warnings about deprecated fields. -/
def Collected.quiet (c : Collected) : Collected := { c with warnings := Qlc.quiet c.warnings }
/-- The same without warnings about deprecated fields. -/
def LoopSt.quiet (s : LoopSt) : LoopSt := { s with warnings := Qlc.quiet s.warnings }
/-- The same without warnings about deprecated fields. -/
def Flow.quiet : Flow → Flow
  | .next s => .next s.quiet
  | .ret e s => .ret e s.quiet

section
variable {ω : Hash} {schema : Schema} {fr : AMap String FragmentDef} {rec rec' : CollectFn}

theorem clone_quiet (self : CTrav) (t : String) (pos : Pos) (js : JumpState) (ws : List Warning) :
    self.cloneForTypeSpread ω schema t pos js (quiet ws) =
      (self.cloneForTypeSpread ω schema t pos js ws).map (fun r => (r.1, quiet r.2)) := by
  unfold CTrav.cloneForTypeSpread
  cases CTrav.new schema t pos with
  | error e => rfl
  | ok base =>
    simp only [Except.map]
    split
    · rw [quiet_append]; rfl
    · rfl

theorem insertField_quiet
    (h : ∀ js items parent ws, rec' js items parent (quiet ws) = (rec js items parent ws).map Collected.quiet)
    (pos : Pos) (al : Option String) (name : String) (items : List Selection) (parent : CTrav) (js : JumpState)
    (ws : List Warning) :
    insertField ω ⟨schema, false, fr⟩ rec' pos al name items parent js (quiet ws) =
      (insertField ω ⟨schema, true, fr⟩ rec pos al name items parent js ws).map Collected.quiet := by
  unfold insertField
  cases AMap.get? parent.lookup name with
  | none => rfl
  | some field =>
    have fin : ∀ (p : CTrav) (ws : List Warning), (⟨.ok (), p, quiet ws⟩ : Collected) =
        Collected.quiet ⟨.ok (), p, if (true && field.deprecated && js.isLocal) = true then
          ws ++ [.deprecatedFieldUse pos field.name parent.typeName] else ws⟩ := by
      intro p ws
      unfold Collected.quiet
      simp only [Bool.true_and]
      split
      · rw [quiet_append]; simp [quiet, Warning.isDeprecation]
      · rfl
    simp only [Bool.false_and, Bool.false_eq_true, if_false]
    split
    · split
      · rfl
      · split
        · rfl
        · simp only [Option.map_some, ← fin]
    · split
      · cases CTrav.new schema field.type.name pos with
        | error e => rfl
        | ok sub =>
          simp only [h]
          cases rec js items sub ws with
          | none => rfl
          | some c =>
            obtain ⟨res, p, w⟩ := c
            cases res with
            | error es => rfl
            | ok u =>
              simp only [Option.map_some, Collected.quiet]
              split
              · rfl
              · exact congrArg some (fin _ _)
      · rfl

theorem collectSpread_quiet
    (h : ∀ js items parent ws, rec' js items parent (quiet ws) = (rec js items parent ws).map Collected.quiet)
    (t : String) (pos : Pos) (items : List Selection) (js : JumpState) (s : LoopSt) :
    collectSpread ω ⟨schema, false, fr⟩ rec' t pos items js s.quiet =
      (collectSpread ω ⟨schema, true, fr⟩ rec t pos items js s).map Flow.quiet := by
  unfold collectSpread
  simp only [LoopSt.quiet, clone_quiet]
  cases s.parent.cloneForTypeSpread ω schema t pos js s.warnings with
  | error e =>
    simp only [Except.map]
    split <;> rfl
  | ok r =>
    obtain ⟨sub, ws⟩ := r
    simp only [Except.map, h]
    cases rec js items sub ws with
    | none => rfl
    | some c =>
      simp only [Option.map_some, Collected.quiet]
      cases c.result with
      | error es => rfl
      | ok u =>
        simp only
        split <;> rfl

theorem collectOne_quiet
    (h : ∀ js items parent ws, rec' js items parent (quiet ws) = (rec js items parent ws).map Collected.quiet)
    (js : JumpState) (sel : Selection) (s : LoopSt) :
    collectOne ω ⟨schema, false, fr⟩ rec' js sel s.quiet =
      (collectOne ω ⟨schema, true, fr⟩ rec js sel s).map Flow.quiet := by
  unfold collectOne
  cases sel with
  | field pos al name _ _ items =>
    simp only [LoopSt.quiet, insertField_quiet h]
    cases insertField ω ⟨schema, true, fr⟩ rec pos al name items s.parent js s.warnings with
    | none => rfl
    | some c =>
      simp only [Option.map_some, Collected.quiet]
      cases c.result <;> rfl
  | inline pos cond _ items =>
    cases cond with
    | none => rfl
    | some t => exact collectSpread_quiet h t pos items js.jumpInline s
  | spread pos name _ =>
    simp only
    cases AMap.get? fr name with
    | none => rfl
    | some fd => exact collectSpread_quiet h fd.typeCond pos fd.items js.jumpForeign s

theorem collectLoop_quiet
    (h : ∀ js items parent ws, rec' js items parent (quiet ws) = (rec js items parent ws).map Collected.quiet)
    (js : JumpState) (items : List Selection) (s : LoopSt) :
    collectLoop ω ⟨schema, false, fr⟩ rec' js items s.quiet =
      (collectLoop ω ⟨schema, true, fr⟩ rec js items s).map Collected.quiet := by
  induction items generalizing s with
  | nil => rfl
  | cons sel rest ih =>
    simp only [collectLoop, collectOne_quiet h]
    cases collectOne ω ⟨schema, true, fr⟩ rec js sel s with
    | none => rfl
    | some f =>
      cases f with
      | next s' => exact ih s'
      | ret e s' => rfl

theorem collect_quiet (n : Nat) (js : JumpState) (items : List Selection) (parent : CTrav) (ws : List Warning) :
    collect ω ⟨schema, false, fr⟩ n js items parent (quiet ws) =
      (collect ω ⟨schema, true, fr⟩ n js items parent ws).map Collected.quiet := by
  induction n generalizing js items parent ws with
  | zero => rfl
  | succ n ih => exact collectLoop_quiet ih js items ⟨[], parent, ws⟩

theorem compile_quiet (fuel : Nat) (d : Definition) :
    Operation.compile ω fuel ⟨schema, false, fr⟩ d =
      (Operation.compile ω fuel ⟨schema, true, fr⟩ d).map (fun r => (r.1, quiet r.2)) := by
  unfold Operation.compile
  cases d with
  | selectionSet pos _ => rfl
  | operation kw pos name vars _ items =>
    simp only
    cases CTrav.new schema (opNames kw).1 pos with
    | error e => rfl
    | ok parent =>
      have := collect_quiet (ω := ω) (schema := schema) (fr := fr) fuel .rootLocal items parent []
      rw [show quiet [] = [] from rfl] at this
      simp only [this]
      cases collect ω ⟨schema, true, fr⟩ fuel .rootLocal items parent [] with
      | none => rfl
      | some c =>
        simp only [Option.map_some, Collected.quiet]
        cases c.result with
        | error es => rfl
        | ok u =>
          simp only
          cases c.parent.toIR ω [] with
          | error e => rfl
          | ok coll =>
            simp only
            cases tryBuildVariableIr schema vars <;> rfl
  | fragment f =>
    simp only
    cases CTrav.new schema f.typeCond f.pos with
    | error e => rfl
    | ok parent =>
      have := collect_quiet (ω := ω) (schema := schema) (fr := fr) fuel .rootLocal f.items parent []
      rw [show quiet [] = [] from rfl] at this
      simp only [this]
      cases collect ω ⟨schema, true, fr⟩ fuel .rootLocal f.items parent [] with
      | none => rfl
      | some c =>
        simp only [Option.map_some, Collected.quiet]
        cases c.result with
        | error es => rfl
        | ok u =>
          simp only
          cases c.parent.toIR ω [] <;> rfl
end

end Qlc
