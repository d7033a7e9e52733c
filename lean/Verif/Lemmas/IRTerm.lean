import Verif.Lemmas.IRValid
import Mathlib.Order.WellFounded
/-
When `collect` runs out of fuel, and what compiling a definition yields.
-/
set_option autoImplicit false

namespace Qlc
open Spec

variable {schema : Schema} {frags : Frags}

/-- The nesting of selection sets is below `n`. -/
def Fits (schema : Schema) (frags : Frags) : Nat → String × List Selection → Prop
  | 0, _ => False
  | n + 1, x => ∀ y, Enters schema frags x y → Fits schema frags n y

theorem Fits.succ {n : Nat} : ∀ {x : String × List Selection}, Fits schema frags n x →
    Fits schema frags (n + 1) x := by
  induction n with
  | zero => intro x h; exact h.elim
  | succ n ih => intro x h y hy; exact ih (h y hy)

theorem Fits.mono {n m : Nat} (hnm : n ≤ m) {x : String × List Selection}
    (h : Fits schema frags n x) : Fits schema frags m x := by
  induction hnm with
  | refl => exact h
  | step _ ih => exact ih.succ

theorem enters_cons {P : String} {s : Selection} {items : List Selection}
    {y : String × List Selection} : Enters schema frags (P, s :: items) y ↔
      Enters schema frags (P, [s]) y ∨ Enters schema frags (P, items) y := by
  constructor
  · intro h
    cases h with
    | field h1 h2 h3 h4 =>
      rcases List.mem_cons.1 h1 with h1 | h1
      · exact .inl (.field (List.mem_singleton.2 h1) h2 h3 h4)
      · exact .inr (.field h1 h2 h3 h4)
    | «inline» h1 h2 =>
      rcases List.mem_cons.1 h1 with h1 | h1
      · exact .inl (.inline (List.mem_singleton.2 h1) h2)
      · exact .inr (.inline h1 h2)
    | spread h1 h2 h3 =>
      rcases List.mem_cons.1 h1 with h1 | h1
      · exact .inl (.spread (List.mem_singleton.2 h1) h2 h3)
      · exact .inr (.spread h1 h2 h3)
  · rintro (h | h)
    · cases h with
      | field h1 h2 h3 h4 => exact .field (by rw [List.mem_singleton.1 h1]; exact List.mem_cons_self ..) h2 h3 h4
      | «inline» h1 h2 => exact .inline (by rw [List.mem_singleton.1 h1]; exact List.mem_cons_self ..) h2
      | spread h1 h2 h3 => exact .spread (by rw [List.mem_singleton.1 h1]; exact List.mem_cons_self ..) h2 h3
    · cases h with
      | field h1 h2 h3 h4 => exact .field (List.mem_cons_of_mem _ h1) h2 h3 h4
      | «inline» h1 h2 => exact .inline (List.mem_cons_of_mem _ h1) h2
      | spread h1 h2 h3 => exact .spread (List.mem_cons_of_mem _ h1) h2 h3

/-- When the recursive call returns. -/
def RecSome (schema : Schema) (frags : Frags) (rec : CollectFn) (R : String × List Selection → Prop) :
    Prop :=
  ∀ js items parent ws P N K, Inv schema frags P N parent K →
    ((rec js items parent ws).isSome = true ↔ R (P, items))

theorem collectSpread_some (ω : Hash) (showDep : Bool) (rec : CollectFn)
    (R : String × List Selection → Prop) (hR : RecSome schema frags rec R) (js : JumpState) (C : String)
    (pos : Pos) (items : List Selection) (s : LoopSt) {P : String} {N : List String} {K : Groups}
    (hI : Inv schema frags P N s.parent K) :
    (collectSpread ω ⟨schema, showDep, frags⟩ rec C pos items js s).isSome = true ↔
      (IsComposite schema C → R (C, items)) := by
  unfold collectSpread
  cases hC : fieldsOf schema C with
  | none =>
    have hcl : s.parent.cloneForTypeSpread ω schema C pos js s.warnings =
        .error (conditionError schema C pos) := by
      unfold CTrav.cloneForTypeSpread; rw [new_error hC]
    rw [hcl]
    have : ¬ IsComposite schema C := by unfold IsComposite; rw [hC]; simp
    simp [this]
  | some cfl =>
    have hcomp : IsComposite schema C := by unfold IsComposite; rw [hC]; rfl
    rw [clone_ok ω hI hC]
    simp only [hcomp, true_implies]
    have hI' := inv_empty (frags := frags) hC (narrowed schema C N)
      ((nodup_possibleNames C).sublist List.filter_sublist)
    rw [← hR js items _ (s.warnings ++ _) C _ _ hI']
    cases rec js items _ _ with
    | none => simp
    | some c =>
      simp only [Option.isSome_some]
      cases c.result with
      | error es => simp
      | ok u =>
        simp only
        cases CTrav.merge ω c.parent s.parent <;> simp

theorem collectOne_some (ω : Hash) (hcon : Consistent schema) (showDep : Bool) (rec : CollectFn)
    (R : String × List Selection → Prop) (hR : RecSome schema frags rec R) (js : JumpState)
    (sel : Selection) (s : LoopSt) {P : String} {N : List String} {K : Groups}
    (hI : Inv schema frags P N s.parent K) :
    (collectOne ω ⟨schema, showDep, frags⟩ rec js sel s).isSome = true ↔
      ∀ y, Enters schema frags (P, [sel]) y → R y := by
  cases sel with
  | field pos al name args dirs sub =>
    simp only [collectOne, insertField, fieldOf_lookup hI]
    have hchild : (∀ y, Enters schema frags (P, [.field pos al name args dirs sub]) y → R y) ↔
        (∀ f, fieldOf schema P name = some f → IsComposite schema f.type.name → sub ≠ [] →
          R (f.type.name, sub)) := by
      constructor
      · intro h f hf hc hs
        exact h _ (.field (List.mem_singleton_self _) hf hc hs)
      · intro h y hy
        cases hy with
        | field h1 h2 h3 h4 =>
          have h1' := List.mem_singleton.1 h1
          injection h1' with e1 e2 e3 e4 e5 e6
          subst e3 e6
          exact h _ h2 h3 h4
        | «inline» h1 => have := List.mem_singleton.1 h1; simp at this
        | spread h1 => have := List.mem_singleton.1 h1; simp at this
    rw [hchild]
    cases hf : fieldOf schema P name with
    | none => simp
    | some f =>
      obtain ⟨_, hcc⟩ := hcon P name f hf
      simp only [Option.some.injEq, forall_eq']
      by_cases he : sub.isEmpty = true
      · have he' : sub = [] := List.isEmpty_iff.1 he
        rw [if_pos he]
        subst he'
        by_cases hc : f.type.definition.isComplex = true
        · rw [if_pos hc]; simp
        · rw [if_neg hc]
          cases CTrav.insertAll ω (al.getD name, f.type.name) f (.terminal f.type.name) s.parent <;>
            simp
      · have he' : sub ≠ [] := fun h => he (List.isEmpty_iff.2 h)
        rw [if_neg he]
        by_cases hc : f.type.definition.isComplex = true
        · rw [if_pos hc]
          have hcmp := hcc.1 hc
          obtain ⟨fl', hfl'⟩ := Option.isSome_iff_exists.1 hcmp
          rw [new_ok hfl']
          simp only [hcmp, he', ne_eq, not_false_eq_true, true_implies]
          have hI' := inv_empty (frags := frags) hfl' (possibleNames schema f.type.name)
            (nodup_possibleNames _)
          rw [← hR js sub _ s.warnings _ _ _ hI']
          cases rec js sub _ _ with
          | none => simp
          | some c =>
            simp only [Option.isSome_some]
            cases hres : c.result with
            | error es => simp
            | ok u =>
              simp only
              cases CTrav.insertAll ω (al.getD name, f.type.name) f (.complex c.parent) s.parent <;>
                simp
        · rw [if_neg hc]
          have : ¬ IsComposite schema f.type.name := fun h => hc (hcc.2 h)
          simp [this]
  | «inline» pos cond dirs sub =>
    simp only [collectOne]
    cases cond with
    | none =>
      simp only [Option.isSome_some, true_iff]
      intro y hy
      cases hy with
      | field h1 => have := List.mem_singleton.1 h1; simp at this
      | «inline» h1 => have := List.mem_singleton.1 h1; simp at this
      | spread h1 => have := List.mem_singleton.1 h1; simp at this
    | some C =>
      simp only
      rw [collectSpread_some ω showDep rec R hR _ C pos sub s hI]
      constructor
      · intro h y hy
        cases hy with
        | field h1 => have := List.mem_singleton.1 h1; simp at this
        | «inline» h1 h2 =>
          have h1' := List.mem_singleton.1 h1
          injection h1' with e1 e2 e3 e4
          injection e2 with e2
          subst e2 e4
          exact h h2
        | spread h1 => have := List.mem_singleton.1 h1; simp at this
      · intro h hc
        exact h _ (.inline (List.mem_singleton_self _) hc)
  | spread pos name dirs =>
    simp only [collectOne]
    cases hg : AMap.get? frags name with
    | none =>
      simp only [Option.isSome_some, true_iff]
      intro y hy
      cases hy with
      | field h1 => have := List.mem_singleton.1 h1; simp at this
      | «inline» h1 => have := List.mem_singleton.1 h1; simp at this
      | spread h1 h2 =>
        have h1' := List.mem_singleton.1 h1
        injection h1' with e1 e2 e3
        subst e2
        rw [hg] at h2; simp at h2
    | some fd =>
      simp only
      rw [collectSpread_some ω showDep rec R hR _ fd.typeCond pos fd.items s hI]
      constructor
      · intro h y hy
        cases hy with
        | field h1 => have := List.mem_singleton.1 h1; simp at this
        | «inline» h1 => have := List.mem_singleton.1 h1; simp at this
        | spread h1 h2 h3 =>
          have h1' := List.mem_singleton.1 h1
          injection h1' with e1 e2 e3
          subst e2
          rw [hg] at h2
          injection h2 with e
          subst e
          exact h h3
      · intro h hc
        exact h _ (.spread (List.mem_singleton_self _) hg hc)

theorem collectOne_post (ω : Hash) (hcon : Consistent schema) (showDep : Bool) (rec : CollectFn)
    (hrec : RecOk schema frags showDep rec) (js : JumpState) (sel : Selection) (s : LoopSt) {P : String}
    {N : List String} {K : Groups} (hI : Inv schema frags P N s.parent K) (fl : Flow)
    (ho : collectOne ω ⟨schema, showDep, frags⟩ rec js sel s = some fl) :
    OnePost schema frags showDep js sel s P N K fl := by
  have hN : N.Nodup := by
    obtain ⟨n, hn⟩ := hI.rep
    rw [← hI.names]; exact hn.1
  cases sel with
  | field pos al name args dirs its =>
    exact collectOne_field ω hcon showDep rec hrec js pos al name args dirs its s hI fl ho
  | «inline» pos cond dirs its =>
    exact collectOne_inline ω showDep rec hrec js pos cond dirs its s hI hN fl ho
  | spread pos name dirs =>
    exact collectOne_spread ω showDep rec hrec js pos name dirs s hI hN fl ho

theorem collectLoop_some (ω : Hash) (hcon : Consistent schema) (showDep : Bool) (rec : CollectFn)
    (hrec : RecOk schema frags showDep rec) (R : String × List Selection → Prop)
    (hR : RecSome schema frags rec R) (js : JumpState) (items : List Selection) :
    ∀ (s : LoopSt) (P : String) (N : List String) (K : Groups), Inv schema frags P N s.parent K →
    ((collectLoop ω ⟨schema, showDep, frags⟩ rec js items s).isSome = true ↔
      ∀ y, Enters schema frags (P, items) y → R y) := by
  induction items with
  | nil =>
    intro s P N K _
    simp only [collectLoop, Option.isSome_some, true_iff]
    intro y hy
    cases hy with
    | field h1 => simp at h1
    | «inline» h1 => simp at h1
    | spread h1 => simp at h1
  | cons sel items ih =>
    intro s P N K hI
    have hone := collectOne_some ω hcon showDep rec R hR js sel s hI
    simp only [collectLoop]
    cases ho : collectOne ω ⟨schema, showDep, frags⟩ rec js sel s with
    | none =>
      rw [ho] at hone
      simp only [Option.isSome_none, Bool.false_eq_true, false_iff] at hone ⊢
      intro hall
      exact hone (fun y hy => hall y (enters_cons.2 (.inl hy)))
    | some fl =>
      rw [ho] at hone
      simp only [Option.isSome_some, true_iff] at hone
      obtain ⟨es, nws, K', p, rfl, _, _, hinv, _⟩ :=
        collectOne_post ω hcon showDep rec hrec js sel s hI fl ho
      simp only
      rw [ih _ P N K' hinv]
      constructor
      · intro h y hy
        rcases enters_cons.1 hy with hy | hy
        · exact hone y hy
        · exact h y hy
      · intro h y hy
        exact h y (enters_cons.2 (.inr hy))

/-- `collect` returns exactly if the nesting is below the fuel. -/
theorem collect_some (ω : Hash) (hcon : Consistent schema) (showDep : Bool) (n : Nat) :
    RecSome schema frags (collect ω ⟨schema, showDep, frags⟩ n) (Fits schema frags n) := by
  induction n with
  | zero => intro js items parent ws P N K _; simp [collect, Fits]
  | succ n ih =>
    intro js items parent ws P N K hI
    simp only [collect]
    rw [collectLoop_some ω hcon showDep _ (collect_post ω hcon showDep n) _ ih js items
      ⟨[], parent, ws⟩ P N K hI]
    rfl

theorem exists_fits_iff (x : String × List Selection) :
    (∃ n, Fits schema frags n x) ↔ Acc (fun b a => Enters schema frags a b) x := by
  constructor
  · rintro ⟨n, h⟩
    induction n generalizing x with
    | zero => exact h.elim
    | succ n ih => exact .intro x (fun y hy => ih y (h y hy))
  · intro h
    induction h with
    | intro x _ ih =>
      obtain ⟨P, items⟩ := x
      have key : ∀ l : List Selection, (∀ s ∈ l, s ∈ items) →
          ∃ n, ∀ y, Enters schema frags (P, l) y → Fits schema frags n y := by
        intro l
        induction l with
        | nil =>
          intro _
          refine ⟨0, fun y hy => ?_⟩
          cases hy with
          | field h1 => simp at h1
          | «inline» h1 => simp at h1
          | spread h1 => simp at h1
        | cons s l ihl =>
          intro hsub
          obtain ⟨n1, h1⟩ := ihl (fun s hs => hsub s (List.mem_cons_of_mem _ hs))
          have hs := hsub s (List.mem_cons_self ..)
          -- the selection itself enters at most one selection set
          have huniq : ∀ y y', Enters schema frags (P, [s]) y → Enters schema frags (P, [s]) y' →
              y = y' := by
            intro y y' hy hy'
            cases hy with
            | field a1 a2 a3 a4 =>
              have a1 := List.mem_singleton.1 a1
              subst a1
              cases hy' with
              | field b1 b2 b3 b4 =>
                have b1 := List.mem_singleton.1 b1
                injection b1 with e1 e2 e3 e4 e5 e6
                subst e3 e6
                rw [a2] at b2
                injection b2 with e
                rw [e]
              | «inline» b1 => have := List.mem_singleton.1 b1; simp at this
              | spread b1 => have := List.mem_singleton.1 b1; simp at this
            | «inline» a1 a2 =>
              have a1 := List.mem_singleton.1 a1
              subst a1
              cases hy' with
              | field b1 => have := List.mem_singleton.1 b1; simp at this
              | «inline» b1 b2 =>
                have b1 := List.mem_singleton.1 b1
                injection b1 with e1 e2 e3 e4
                injection e2 with e2
                rw [e2, e4]
              | spread b1 => have := List.mem_singleton.1 b1; simp at this
            | spread a1 a2 a3 =>
              have a1 := List.mem_singleton.1 a1
              subst a1
              cases hy' with
              | field b1 => have := List.mem_singleton.1 b1; simp at this
              | «inline» b1 => have := List.mem_singleton.1 b1; simp at this
              | spread b1 b2 b3 =>
                have b1 := List.mem_singleton.1 b1
                injection b1 with e1 e2 e3
                subst e2
                rw [a2] at b2
                injection b2 with e
                rw [e]
          have hlift : ∀ y, Enters schema frags (P, [s]) y → Enters schema frags (P, items) y := by
            intro y hy
            cases hy with
            | field h1 h2 h3 h4 => exact .field (by rw [List.mem_singleton.1 h1]; exact hs) h2 h3 h4
            | «inline» h1 h2 => exact .inline (by rw [List.mem_singleton.1 h1]; exact hs) h2
            | spread h1 h2 h3 => exact .spread (by rw [List.mem_singleton.1 h1]; exact hs) h2 h3
          by_cases hex : ∃ y, Enters schema frags (P, [s]) y
          · obtain ⟨y, hy⟩ := hex
            obtain ⟨n2, h2⟩ := ih y (hlift y hy)
            refine ⟨max n1 n2, fun z hz => ?_⟩
            rcases enters_cons.1 hz with hz | hz
            · rw [huniq z y hz hy]; exact h2.mono (Nat.le_max_right ..)
            · exact (h1 z hz).mono (Nat.le_max_left ..)
          · refine ⟨n1, fun z hz => ?_⟩
            rcases enters_cons.1 hz with hz | hz
            · exact absurd ⟨z, hz⟩ hex
            · exact h1 z hz
      obtain ⟨n, hn⟩ := key items (fun _ h => h)
      exact ⟨n + 1, hn⟩

theorem acc_iff_no_chain (P : String) (items : List Selection) :
    Acc (fun b a => Enters schema frags a b) (P, items) ↔ ¬ InfiniteChain schema frags P items := by
  rw [← not_iff_not, not_not, not_acc_iff_exists_descending_chain]
  rfl

/-! ### Compiling a definition -/

/-- The name of the generated operation. -/
def nameOf : Definition → String
  | .selectionSet .. => ""
  | .operation kw _ name _ _ _ => name.getD (opNames kw).2
  | .fragment f => f.name

/-- Its kind. -/
def kindOf : Definition → OpKind
  | .operation kw _ _ _ _ _ => OpKind.ofName (opNames kw).1
  | _ => .fragment

/-- The result once the selections are fine. -/
def finish (schema : Schema) (d : Definition) (coll : List Complex) :
    Except (List IrError) Operation :=
  match tryBuildVariableIr schema (varsOf d) with
  | .error e => .error [.variable e]
  | .ok vs => .ok ⟨nameOf d, coll, vs, kindOf d⟩

theorem compile_none_iff (ω : Hash) (fuel : Nat) (showDep : Bool) (hcon : Consistent schema)
    (d : Definition) : Operation.compile ω fuel ⟨schema, showDep, frags⟩ d = none ↔
      ∃ P, rootType d = some P ∧ IsComposite schema P ∧ ¬ Fits schema frags fuel (P, itemsOf d) := by
  have key : ∀ (P : String) (items : List Selection) (pos : Pos)
      (k : Collected → Option (Except (List IrError) Operation × List Warning)),
      (∀ c, (k c).isSome = true) →
      ((match CTrav.new schema P pos with
        | .error e => some (.error [e], [])
        | .ok parent =>
          match collect ω ⟨schema, showDep, frags⟩ fuel .rootLocal items parent [] with
          | none => none
          | some c => k c) = none ↔
        IsComposite schema P ∧ ¬ Fits schema frags fuel (P, items)) := by
    intro P items pos k hk
    cases hP : fieldsOf schema P with
    | none =>
      rw [new_error hP]
      have : ¬ IsComposite schema P := by unfold IsComposite; rw [hP]; simp
      simp [this]
    | some fl =>
      rw [new_ok hP]
      have : IsComposite schema P := by unfold IsComposite; rw [hP]; rfl
      simp only [this, true_and]
      have hI := inv_empty (frags := frags) hP (possibleNames schema P) (nodup_possibleNames _)
      rw [← collect_some ω hcon showDep fuel .rootLocal items _ [] P _ _ hI]
      cases collect ω ⟨schema, showDep, frags⟩ fuel .rootLocal items _ [] with
      | none => simp
      | some c =>
        have := hk c
        cases hkc : k c with
        | none => rw [hkc] at this; simp at this
        | some r => simp [hkc]
  have hk : ∀ (c : Collected) (name : String) (kind : OpKind) (vars : List VarDef),
      (match c.result with
        | .error es => some (Except.error es, c.warnings)
        | .ok () =>
          match c.parent.toIR ω [] with
          | .error e => some (.error [e], c.warnings)
          | .ok coll =>
            match tryBuildVariableIr schema vars with
            | .error e => some (.error [.variable e], c.warnings)
            | .ok vs => some (Except.ok (Operation.mk name coll vs kind), c.warnings)).isSome = true := by
    intro c name kind vars
    cases c.result with
    | error es => rfl
    | ok u =>
      simp only
      cases c.parent.toIR ω [] with
      | error e => rfl
      | ok coll => simp only; cases tryBuildVariableIr schema vars <;> rfl
  have hk' : ∀ (c : Collected) (name : String) (kind : OpKind),
      (match c.result with
        | .error es => some (Except.error es, c.warnings)
        | .ok () =>
          match c.parent.toIR ω [] with
          | .error e => some (.error [e], c.warnings)
          | .ok coll =>
            some (Except.ok (Operation.mk name coll none kind), c.warnings)).isSome = true := by
    intro c name kind
    cases c.result with
    | error es => rfl
    | ok u =>
      simp only
      cases c.parent.toIR ω [] <;> rfl
  cases d with
  | selectionSet pos items => simp [Operation.compile, rootType]
  | operation kw pos name vars dirs items =>
    have hr : rootType (.operation kw pos name vars dirs items) = some (opNames kw).1 := by
      cases kw <;> rfl
    rw [hr]
    simp only [Option.some.injEq, exists_eq_left']
    exact key (opNames kw).1 items pos _ (fun c => hk c _ _ vars)
  | fragment f =>
    simp only [rootType, Option.some.injEq, exists_eq_left']
    exact key f.typeCond f.items f.pos _ (fun c => hk' c _ _)

/-- What compiling a definition yields. -/
theorem compile_spec (ω : Hash) (fuel : Nat) (showDep : Bool) (hcon : Consistent schema)
    (d : Definition) (r : Except (List IrError) Operation) (ws : List Warning) (P : String)
    (hP : rootType d = some P)
    (h : Operation.compile ω fuel ⟨schema, showDep, frags⟩ d = some (r, ws)) :
    (¬ IsComposite schema P ∧ (∃ pos ∈ positionsOf d, r = .error [conditionError schema P pos]) ∧
      ws = []) ∨
    (IsComposite schema P ∧ ∃ es, ErrsOk schema frags es (checkSels schema frags true P (itemsOf d)) ∧
      ws.map Warning.norm = (warnSels schema frags showDep P (possibleNames schema P)
        (itemsOf d)).map Warning.norm ∧
      (es ≠ [] → r = .error es) ∧
      (es = [] → ∃ coll, (∀ m, TreeIs schema (collectorX schema frags) m P [itemsOf d] coll) ∧
        r = finish schema d coll)) := by
  have key : ∀ (items : List Selection) (pos : Pos)
      (k : Collected → List Complex → Except (List IrError) Operation × List Warning),
      (match CTrav.new schema P pos with
        | .error e => some (.error [e], [])
        | .ok parent =>
          match collect ω ⟨schema, showDep, frags⟩ fuel .rootLocal items parent [] with
          | none => none
          | some c =>
            match c.result with
            | .error es => some (.error es, c.warnings)
            | .ok () =>
              match c.parent.toIR ω [] with
              | .error e => some (.error [e], c.warnings)
              | .ok coll => some (k c coll)) = some (r, ws) →
      (∀ c coll, (k c coll).2 = c.warnings) → (∀ c coll, (k c coll).1 = finish schema d coll) →
      (¬ IsComposite schema P ∧ r = .error [conditionError schema P pos] ∧ ws = []) ∨
      (IsComposite schema P ∧ ∃ es, ErrsOk schema frags es (checkSels schema frags true P items) ∧
        ws.map Warning.norm = (warnSels schema frags showDep P (possibleNames schema P)
          items).map Warning.norm ∧
        (es ≠ [] → r = .error es) ∧
        (es = [] → ∃ coll, (∀ m, TreeIs schema (collectorX schema frags) m P [items] coll) ∧
          r = finish schema d coll)) := by
    intro items pos k h hk2 hk1
    cases hC : fieldsOf schema P with
    | none =>
      rw [new_error hC] at h
      simp only [Option.some.injEq, Prod.mk.injEq] at h
      have : ¬ IsComposite schema P := by unfold IsComposite; rw [hC]; simp
      exact .inl ⟨this, h.1.symm, h.2.symm⟩
    | some fl =>
      rw [new_ok hC] at h
      simp only at h
      have hcomp : IsComposite schema P := by unfold IsComposite; rw [hC]; rfl
      have hI := inv_empty (frags := frags) hC (possibleNames schema P) (nodup_possibleNames _)
      refine .inr ⟨hcomp, ?_⟩
      cases hcol : collect ω ⟨schema, showDep, frags⟩ fuel .rootLocal items (CTrav.mk P fl
        ((possibleNames schema P).map (fun n => Obj.mk n []))) [] with
      | none => rw [hcol] at h; simp at h
      | some c =>
        rw [hcol] at h
        simp only at h
        obtain ⟨es, nws, K', r1, r2, r3, r4, r5, r6⟩ :=
          collect_post ω hcon showDep fuel _ _ _ _ _ _ _ _ hI hcol
        refine ⟨es, r2, ?_⟩
        have hw : c.warnings.map Warning.norm = (warnSels schema frags showDep P
            (possibleNames schema P) items).map Warning.norm := by
          rw [r3]; simpa [JumpState.isLocal] using r4
        rcases result_nil r1 with ⟨rfl, r1'⟩ | ⟨hne, r1'⟩
        · rw [r1'] at h
          simp only at h
          obtain ⟨n, hn⟩ := r5.rep
          obtain ⟨coll, hcoll⟩ := toIR_ok (frags := frags) ω (n + 1) c.parent K' [] hn
          rw [hcoll] at h
          simp only [Option.some.injEq] at h
          have e1 : r = finish schema d coll := by rw [← hk1 c coll, h]
          have e2 : ws = c.warnings := by rw [← hk2 c coll, h]
          refine ⟨by rw [e2]; exact hw, fun hne => absurd rfl hne, fun _ => ⟨coll, ?_, e1⟩⟩
          intro m
          refine toIR_tree ω (n + 1) m c.parent K' [] coll P [items] hn r5.names ?_ hcoll
          intro T hT
          rw [r5.names] at hT
          obtain ⟨L, hL, hK⟩ := r6 T hT
          refine ⟨L, ⟨[L], .cons (collX_false hL ?_) .nil, by simp⟩, fun id => by rw [hK]; rfl⟩
          have := r2.1
          simpa using this.symm
        · rw [r1'] at h
          simp only [Option.some.injEq, Prod.mk.injEq] at h
          refine ⟨by rw [← h.2]; exact hw, fun _ => h.1.symm, fun he => absurd he hne⟩
  cases d with
  | selectionSet pos items => simp [rootType] at hP
  | operation kw pos name vars dirs items =>
    have hr : P = (opNames kw).1 := by cases kw <;> simpa [rootType, opNames] using hP.symm
    subst hr
    have h' := key items pos (fun c coll =>
      match tryBuildVariableIr schema vars with
      | .error e => (.error [.variable e], c.warnings)
      | .ok vs => (.ok ⟨name.getD (opNames kw).2, coll, vs, OpKind.ofName (opNames kw).1⟩, c.warnings))
      (by
        unfold Operation.compile at h
        rw [← h]
        simp only
        cases CTrav.new schema (opNames kw).1 pos with
        | error e => rfl
        | ok parent =>
          simp only
          cases collect ω ⟨schema, showDep, frags⟩ fuel .rootLocal items parent [] with
          | none => rfl
          | some c =>
            simp only
            cases c.result with
            | error es => rfl
            | ok u =>
              simp only
              cases c.parent.toIR ω [] with
              | error e => rfl
              | ok coll =>
                simp only
                cases tryBuildVariableIr schema vars <;> rfl)
      (by intro c coll; cases tryBuildVariableIr schema vars <;> rfl)
      (by
        intro c coll
        simp only [finish, varsOf]
        cases tryBuildVariableIr schema vars <;> rfl)
    rcases h' with ⟨a, b, c⟩ | h'
    · exact .inl ⟨a, ⟨pos, by simp [positionsOf], b⟩, c⟩
    · exact .inr h'
  | fragment f =>
    have hr : P = f.typeCond := by simpa [rootType] using hP.symm
    subst hr
    have h' := key f.items f.pos (fun c coll => (.ok ⟨f.name, coll, none, .fragment⟩, c.warnings))
      (by unfold Operation.compile at h; exact h) (fun _ _ => rfl) (fun _ _ => rfl)
    rcases h' with ⟨a, b, c⟩ | h'
    · exact .inl ⟨a, ⟨f.pos, by simp [positionsOf], b⟩, c⟩
    · exact .inr h'

end Qlc
