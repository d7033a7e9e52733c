import Verif.Lemmas.IRRep
/-
What `collect` does: its errors, its warnings, and what the resulting traversal represents.
-/
set_option autoImplicit false

namespace Qlc
open Spec

/-- The warning for using a field, if it is deprecated. -/
def depWarning (showDep : Bool) (pos : Pos) (P : String) (f : SField) : List Warning :=
  if showDep && f.deprecated then [.deprecatedFieldUse pos f.name P] else []

/-- The possible types that remain below a type condition. -/
def narrowed (schema : Schema) (C : String) (N : List String) : List String :=
  (possibleNames schema C).filter (fun T => T ∈ N)

/-- The warning for a type condition that leaves no possible type. -/
def narrowWarning (schema : Schema) (pos : Pos) (C : String) (N : List String) : List Warning :=
  if (narrowed schema C N).isEmpty then [.overFragmentNarrowing pos N C] else []

mutual
/-- The warnings of one selection written in the compiled file, at a position of type `P` where the
object types `N` are possible. -/
def warnSel (schema : Schema) (frags : Frags) (showDep : Bool) (P : String) (N : List String) :
    Selection → List Warning
  | .field pos _ name _ _ items =>
    match fieldOf schema P name with
    | none => []
    | some f =>
      if f.type.definition.isComplex then
        if items.isEmpty then []
        else warnSels schema frags showDep f.type.name (possibleNames schema f.type.name) items ++
          (if (checkSels schema frags true f.type.name items).isEmpty then
            depWarning showDep pos P f else [])
      else if items.isEmpty then depWarning showDep pos P f
      else []
  | .inline _ none _ _ => []
  | .inline pos (some C) _ items =>
    if (fieldsOf schema C).isSome then
      narrowWarning schema pos C N ++ warnSels schema frags showDep C (narrowed schema C N) items
    else []
  | .spread pos name _ =>
    match AMap.get? frags name with
    | none => []
    | some fd =>
      if (fieldsOf schema fd.typeCond).isSome then narrowWarning schema pos fd.typeCond N else []
/-- The warnings of a selection set, in document order. -/
def warnSels (schema : Schema) (frags : Frags) (showDep : Bool) (P : String) (N : List String) :
    List Selection → List Warning
  | [] => []
  | s :: rest => warnSel schema frags showDep P N s ++ warnSels schema frags showDep P N rest
end

variable {schema : Schema} {frags : Frags}

mutual
theorem checkSel_false (P : String) : ∀ s : Selection, checkSel schema frags true P s = [] →
    checkSel schema frags false P s = []
  | .field pos al name args dirs items => by
    intro h
    unfold checkSel at h ⊢
    cases hf : fieldOf schema P name with
    | none => rw [hf] at h; simp at h
    | some f =>
      rw [hf] at h
      simp only at h ⊢
      by_cases hc : f.type.definition.isComplex = true
      · simp only [hc, if_true] at h ⊢
        by_cases he : items.isEmpty = true
        · rw [if_pos he] at h; simp at h
        · rw [if_neg he] at h ⊢
          exact checkSels_false f.type.name items h
      · simp only [hc, if_false] at h ⊢
        exact h
  | .inline pos none dirs items => by intro h; unfold checkSel at h; simp at h
  | .inline pos (some C) dirs items => by intro _; unfold checkSel; simp
  | .spread pos name dirs => by intro h; unfold checkSel at h ⊢; exact h
theorem checkSels_false (P : String) : ∀ ss : List Selection, checkSels schema frags true P ss = [] →
    checkSels schema frags false P ss = []
  | [] => by intro _; unfold checkSels; rfl
  | s :: rest => by
    intro h
    unfold checkSels at h ⊢
    rw [List.append_eq_nil_iff] at h
    rw [checkSel_false P s h.1, checkSels_false P rest h.2]; rfl
end

/-- For a valid selection set it does not matter whether it is written in the compiled file. -/
theorem collX_false {T : String} {loc : Bool} {P : String} {items : List Selection}
    {L : List Contribution} (h : CollX schema frags T loc P items L) :
    checkSels schema frags loc P items = [] → CollX schema frags T false P items L := by
  cases loc with
  | false => intro _; exact h
  | true =>
    generalize hl : true = loc at h
    induction h with
    | nil => intro _; exact .nil
    | field h1 h2 _ ih =>
      intro hc
      subst hl
      simp only [checkSels, List.append_eq_nil_iff] at hc
      exact .field (checkSel_false _ _ h1) h2 (ih rfl hc.2)
    | fieldBad h1 _ _ =>
      intro hc
      simp only [checkSels, List.append_eq_nil_iff] at hc
      exact absurd hc.1 h1
    | inlineIn h1 h2 _ _ ih1 ih2 =>
      intro hc
      subst hl
      simp only [checkSels, List.append_eq_nil_iff] at hc
      exact .inlineIn h1 (checkSels_false _ _ h2) (ih1 rfl h2) (ih2 rfl hc.2)
    | inlineOut h1 _ ih =>
      rename_i cond _ _ items _ _ _
      intro hc
      subst hl
      simp only [checkSels, List.append_eq_nil_iff] at hc
      refine .inlineOut ?_ (ih rfl hc.2)
      intro C hC hT
      exfalso
      subst hC
      refine h1 C rfl hT ?_
      have := hc.1
      unfold checkSel at this
      rw [if_pos rfl] at this
      split at this
      · exact this
      · simp at this
    | spreadIn h1 h2 h3 h4 _ _ ih =>
      intro hc
      subst hl
      simp only [checkSels, List.append_eq_nil_iff] at hc
      exact .spreadIn h1 h2 h3 h4 (ih rfl hc.2)
    | spreadOut h1 _ ih =>
      intro hc
      subst hl
      simp only [checkSels, List.append_eq_nil_iff] at hc
      exact .spreadOut h1 (ih rfl hc.2)

/-! ### Traversals -/

/-- What holds of the traversal of a selection set on type `P` with possible types `N`. -/
structure Inv (schema : Schema) (frags : Frags) (P : String) (N : List String) (c : CTrav) (K : Groups) :
    Prop where
  typeName : c.typeName = P
  lookup : fieldsOf schema P = some c.lookup
  names : c.names = N
  rep : ∃ n, RepN schema frags (n + 1) c K

theorem Inv.congr {P : String} {N : List String} {c : CTrav} {K K' : Groups}
    (h : Inv schema frags P N c K) (hK : ∀ T id, K T id = K' T id) : Inv schema frags P N c K' := by
  have : K = K' := by funext T id; exact hK T id
  exact this ▸ h

theorem nodup_possibleNames (P : String) : (possibleNames schema P).Nodup :=
  nodup_foldl_setInsert _ _ List.nodup_nil

theorem mem_possibleNames (P T : String) :
    T ∈ possibleNames schema P ↔ T ∈ possibleTypes schema P := by
  unfold possibleNames; rw [mem_foldl_setInsert]; simp

theorem new_ok {P : String} {fl : FieldsLookup} (h : fieldsOf schema P = some fl) (pos : Pos) :
    CTrav.new schema P pos = .ok (.mk P fl ((possibleNames schema P).map (fun n => Obj.mk n []))) := by
  unfold fieldsOf at h
  unfold CTrav.new possibleNames possibleTypes
  cases ht : schema.getType P with
  | none => rw [ht] at h; simp at h
  | some t =>
    rw [ht] at h
    simp only at h ⊢
    cases hd : t.definition with
    | object f =>
      rw [hd] at h
      simp only [Option.some.injEq] at h
      subst h
      simp [setInsert]
    | interface n f ps =>
      rw [hd] at h
      simp only [Option.some.injEq] at h
      subst h
      rfl
    | union n ps f =>
      rw [hd] at h
      simp only [Option.some.injEq] at h
      subst h
      rfl
    | _ => rw [hd] at h; simp at h

theorem new_error {P : String} (h : fieldsOf schema P = none) (pos : Pos) :
    CTrav.new schema P pos = .error (conditionError schema P pos) := by
  unfold fieldsOf at h
  unfold CTrav.new conditionError
  cases ht : schema.getType P with
  | none => rfl
  | some t =>
    rw [ht] at h
    simp only at h ⊢
    cases hd : t.definition with
    | object f => rw [hd] at h; simp at h
    | interface n f ps => rw [hd] at h; simp at h
    | union n ps f => rw [hd] at h; simp at h
    | _ => rfl

theorem repFields_nil (R : CTrav → Groups → Prop) :
    RepFields schema frags R [] (fun _ => []) :=
  ⟨by simp, by simp, by simp, by simp⟩

theorem inv_empty {P : String} {fl : FieldsLookup} (h : fieldsOf schema P = some fl) (N : List String)
    (hN : N.Nodup) :
    Inv schema frags P N (.mk P fl (N.map (fun n => Obj.mk n []))) (fun _ _ => []) := by
  have hnames : (CTrav.mk P fl (N.map (fun n => Obj.mk n []))).names = N := by
    simp only [CTrav.names, CTrav.objs, List.map_map]
    exact map_self (fun x _ => rfl)
  refine ⟨rfl, h, hnames, 0, ?_, ?_⟩
  · rw [hnames]; exact hN
  · intro T fs hm
    obtain ⟨n, _, e⟩ := List.mem_map.1 hm
    injection e with _ e2
    subst e2
    exact repFields_nil _

theorem clone_ok (ω : Hash) {P C : String} {N : List String} {c : CTrav} {K : Groups}
    (h : Inv schema frags P N c K) {fl : FieldsLookup} (hC : fieldsOf schema C = some fl) (pos : Pos)
    (js : JumpState) (ws : List Warning) :
    c.cloneForTypeSpread ω schema C pos js ws =
      .ok (.mk C fl ((narrowed schema C N).map (fun n => Obj.mk n [])),
        ws ++ if js.isFullyJumped then [] else
          if (narrowed schema C N).isEmpty then
            [.overFragmentNarrowing pos (ω.perm ["ir.rs:324"] N) C] else []) := by
  have hn : c.objs.map Obj.typeName = N := h.names
  unfold CTrav.cloneForTypeSpread
  rw [new_ok hC, hn]
  dsimp only [CTrav.objs, CTrav.typeName, CTrav.lookup]
  have hfil : ((possibleNames schema C).map (fun n => Obj.mk n [])).filter
      (fun o => decide (o.typeName ∈ N)) = (narrowed schema C N).map (fun n => Obj.mk n []) := by
    rw [List.filter_map]; rfl
  rw [hfil]
  cases js.isFullyJumped
  · cases hx : (narrowed schema C N).isEmpty <;> simp [List.isEmpty_map, hx]
  · simp

theorem insertAll_inv (ω : Hash) {P : String} {N : List String} {c : CTrav} {K : Groups}
    (h : Inv schema frags P N c K) (x : Contribution) (t : Trav) (m : Nat)
    (ht : RepTrav schema frags (RepN schema frags m) (cid x) [x] t)
    (hx : x.field.type.definition ≠ .inputObject ∧
      (x.field.type.definition.isComplex = true ↔ IsComposite schema x.field.type.name)) :
    ∃ c', c.insertAll ω (cid x) x.field t = .ok c' ∧ Inv schema frags P N c'
      (fun T id => K T id ++ [x].filter (fun y => cid y = id)) := by
  obtain ⟨n, hrep⟩ := h.rep
  have hrep' : RepN schema frags (max n m + 1) c K := hrep.mono (by omega)
  have ht' : RepTrav schema frags (RepN schema frags (max n m)) (cid x) [x] t :=
    ht.mono (fun _ _ h => h.mono (by omega))
  have hp := ω.isPerm ["ir.rs:343,361"] (c.objs.map Obj.typeName)
  have hM : MergeOk schema frags ω (RepN schema frags (max n m)) := mergeOk ω _
  have hone : ∀ fs G, RepFields schema frags (RepN schema frags (max n m)) fs G →
      ∃ fs', uInsert (cid x) x.field t (Trav.merge ω t) fs = .ok fs' ∧
        RepFields schema frags (RepN schema frags (max n m)) fs'
          (fun id => G id ++ [x].filter (fun y => cid y = id)) := by
    intro fs G hG
    obtain ⟨fs', h1, h2⟩ := uInsert_rep hM hG (cid x) x [] x.field t rfl ht' (by
      intro y hy
      rw [List.mem_singleton.1 hy]
      exact ⟨rfl, hx⟩)
    refine ⟨fs', h1, ?_⟩
    have : (fun id => if id = cid x then G (cid x) ++ [x] else G id) =
        (fun id => G id ++ [x].filter (fun y => cid y = id)) := by
      funext id
      by_cases e : id = cid x
      · subst e; simp
      · have : ¬ cid x = id := fun e' => e e'.symm
        simp [e, this]
    rw [← this]; exact h2
  obtain ⟨objs', h1, h2, h3⟩ := foldE_updates
    (fun _ u u' => ∀ G, RepFields schema frags (RepN schema frags (max n m)) u G →
      RepFields schema frags (RepN schema frags (max n m)) u'
        (fun id => G id ++ [x].filter (fun y => cid y = id)))
    ((ω.perm ["ir.rs:343,361"] (c.objs.map Obj.typeName)).map
      (fun T => (T, uInsert (cid x) x.field t (Trav.merge ω t))))
    (by
      rw [List.map_map]
      have : (Prod.fst ∘ fun T : String => (T, uInsert (cid x) x.field t (Trav.merge ω t))) = id := rfl
      rw [this, List.map_id, hp.nodup_iff]
      exact hrep.1) c.objs hrep.1
    (by
      intro up hup u hu
      obtain ⟨T, _, rfl⟩ := List.mem_map.1 hup
      obtain ⟨u', hu', _⟩ := hone u _ (hrep'.2 T u hu)
      refine ⟨u', hu', ?_⟩
      intro G hG
      obtain ⟨u2, hu2, hr⟩ := hone u G hG
      rw [hu'] at hu2
      injection hu2 with e
      exact e ▸ hr)
  have hall : ∀ T u', Obj.mk T u' ∈ objs' →
      T ∈ ((ω.perm ["ir.rs:343,361"] (c.objs.map Obj.typeName)).map
        (fun T => (T, uInsert (cid x) x.field t (Trav.merge ω t)))).map Prod.fst := by
    intro T u' hm
    rw [List.map_map]
    have : (Prod.fst ∘ fun T : String => (T, uInsert (cid x) x.field t (Trav.merge ω t))) = id := rfl
    rw [this, List.map_id, hp.mem_iff, ← h2]
    exact List.mem_map.2 ⟨_, hm, rfl⟩
  refine ⟨.mk c.typeName c.lookup objs', ?_, h.typeName, h.lookup, ?_, max n m, ?_, ?_⟩
  · unfold CTrav.insertAll
    rw [foldE_map] at h1
    simp only at h1
    rw [h1]
  · rw [← h.names]; exact h2
  · have : (CTrav.mk c.typeName c.lookup objs').names = c.names := h2
    rw [this]; exact hrep.1
  · intro T u' hm
    obtain ⟨u, hu, hcase⟩ := h3 T u' hm
    rcases hcase with ⟨_, hR⟩ | ⟨hout, _⟩
    · exact hR _ (hrep'.2 T u hu)
    · exact absurd (hall T u' hm) hout

theorem merge_inv (ω : Hash) {P C : String} {N N' : List String} {o s : CTrav} {Ko Ks : Groups}
    (ho : Inv schema frags C N' o Ko) (hs : Inv schema frags P N s Ks) :
    ∃ c, CTrav.merge ω o s = .ok c ∧ Inv schema frags P N c
      (fun T id => Ks T id ++ if T ∈ N' then Ko T id else []) := by
  obtain ⟨n, hn⟩ := ho.rep
  obtain ⟨m, hm⟩ := hs.rep
  obtain ⟨c, h1, h2, h3, h4, h5⟩ := cmerge_rep (ω := ω) (mergeOk ω (max n m))
    (hn.mono (m := max n m + 1) (by omega)) (hm.mono (m := max n m + 1) (by omega))
  refine ⟨c, h1, by rw [h2, hs.typeName], by rw [h3]; exact hs.lookup, by rw [h4, hs.names],
    max n m, ?_⟩
  rw [← ho.names]
  exact h5

/-! ### The main lemma -/

/-- The names offered with an error are those the user can choose from. -/
def GoodNames (schema : Schema) (frags : Frags) : IrError → Prop
  | .unknownField P _ _ ns => ∃ fl, fieldsOf schema P = some fl ∧ ns.Perm (AMap.keys fl)
  | .unknownFragment _ _ ns => ns.Perm (AMap.keys frags)
  | _ => True

/-- The errors are the expected ones, up to the order of the names they offer. -/
def ErrsOk (schema : Schema) (frags : Frags) (es expected : List IrError) : Prop :=
  es.map IrError.strip = expected ∧ ∀ e ∈ es, GoodNames schema frags e

theorem ErrsOk.nil : ErrsOk schema frags [] [] := ⟨rfl, by simp⟩

theorem ErrsOk.append {a b c d : List IrError} (h : ErrsOk schema frags a b)
    (h' : ErrsOk schema frags c d) : ErrsOk schema frags (a ++ c) (b ++ d) := by
  refine ⟨by rw [List.map_append, h.1, h'.1], ?_⟩
  intro e he
  rcases List.mem_append.1 he with h1 | h1
  · exact h.2 e h1
  · exact h'.2 e h1

/-- What one run of `collect` yields. -/
def CollectPost (schema : Schema) (frags : Frags) (showDep : Bool) (js : JumpState)
    (items : List Selection) (ws : List Warning) (P : String) (N : List String) (K : Groups)
    (c : Collected) : Prop :=
  ∃ es nws K', c.result = (if es.isEmpty then .ok () else .error es) ∧
    ErrsOk schema frags es (checkSels schema frags js.isLocal P items) ∧
    c.warnings = ws ++ nws ∧
    nws.map Warning.norm =
      (if js.isLocal then warnSels schema frags showDep P N items else []).map Warning.norm ∧
    Inv schema frags P N c.parent K' ∧
    ∀ T ∈ N, ∃ L, CollX schema frags T js.isLocal P items L ∧
      ∀ id, K' T id = K T id ++ L.filter (fun x => cid x = id)

/-- The recursive call behaves. -/
def RecOk (schema : Schema) (frags : Frags) (showDep : Bool) (rec : CollectFn) : Prop :=
  ∀ js items parent ws c P N K, Inv schema frags P N parent K → rec js items parent ws = some c →
    CollectPost schema frags showDep js items ws P N K c

/-- What one iteration of the loop yields. -/
def OnePost (schema : Schema) (frags : Frags) (showDep : Bool) (js : JumpState) (sel : Selection)
    (s : LoopSt) (P : String) (N : List String) (K : Groups) (fl : Flow) : Prop :=
  ∃ es nws K' parent', fl = .next ⟨s.errors ++ es, parent', s.warnings ++ nws⟩ ∧
    ErrsOk schema frags es (checkSel schema frags js.isLocal P sel) ∧
    nws.map Warning.norm =
      (if js.isLocal then warnSel schema frags showDep P N sel else []).map Warning.norm ∧
    Inv schema frags P N parent' K' ∧
    ∀ T ∈ N, ∃ L, (∀ rest Lr, CollX schema frags T js.isLocal P rest Lr →
        CollX schema frags T js.isLocal P (sel :: rest) (L ++ Lr)) ∧
      ∀ id, K' T id = K T id ++ L.filter (fun x => cid x = id)

theorem fieldOf_lookup {P : String} {N : List String} {c : CTrav} {K : Groups}
    (h : Inv schema frags P N c K) (name : String) :
    AMap.get? c.lookup name = fieldOf schema P name := by
  unfold fieldOf; rw [h.lookup]; rfl

theorem result_nil {es : List IrError} {r : Except (List IrError) Unit}
    (h : r = if es.isEmpty then .ok () else .error es) :
    (es = [] ∧ r = .ok ()) ∨ (es ≠ [] ∧ r = .error es) := by
  cases es with
  | nil => exact .inl ⟨rfl, h⟩
  | cons e es => exact .inr ⟨by simp, h⟩

theorem depFinish (showDep : Bool) (js : JumpState) (pos : Pos) (P : String) (f : SField)
    (w : List Warning) :
    (if (showDep && f.deprecated && js.isLocal) = true then
        w ++ [Warning.deprecatedFieldUse pos f.name P] else w) =
      w ++ (if js.isLocal then depWarning showDep pos P f else []) := by
  unfold depWarning
  cases js.isLocal <;> cases showDep <;> cases f.deprecated <;> simp

theorem collectOne_field (ω : Hash) (hcon : Consistent schema) (showDep : Bool) (rec : CollectFn)
    (hrec : RecOk schema frags showDep rec) (js : JumpState) (pos : Pos) (al : Option String)
    (name : String) (args : List (String × Value)) (dirs : List Directive) (items : List Selection)
    (s : LoopSt) {P : String} {N : List String} {K : Groups} (hI : Inv schema frags P N s.parent K)
    (fl : Flow) (h : collectOne ω ⟨schema, showDep, frags⟩ rec js
      (.field pos al name args dirs items) s = some fl) :
    OnePost schema frags showDep js (.field pos al name args dirs items) s P N K fl := by
  -- an iteration that only reports errors
  have hbad : ∀ (es : List IrError) (nws : List Warning),
      fl = .next ⟨s.errors ++ es, s.parent, s.warnings ++ nws⟩ → es ≠ [] →
      ErrsOk schema frags es (checkSel schema frags js.isLocal P (.field pos al name args dirs items)) →
      nws.map Warning.norm = (if js.isLocal then warnSel schema frags showDep P N
        (.field pos al name args dirs items) else []).map Warning.norm →
      OnePost schema frags showDep js (.field pos al name args dirs items) s P N K fl := by
    intro es nws hfl hes hc hw
    refine ⟨es, nws, K, s.parent, hfl, hc, hw, hI, ?_⟩
    intro T _
    refine ⟨[], fun rest Lr hr => .fieldBad ?_ hr, by simp⟩
    rw [← hc.1]
    simpa using hes
  -- an iteration that contributes the field
  have hgood : ∀ (f : SField) (p : CTrav) (nws : List Warning),
      fieldOf schema P name = some f →
      fl = .next ⟨s.errors, p, s.warnings ++ nws⟩ →
      checkSel schema frags js.isLocal P (.field pos al name args dirs items) = [] →
      nws.map Warning.norm = (if js.isLocal then warnSel schema frags showDep P N
        (.field pos al name args dirs items) else []).map Warning.norm →
      Inv schema frags P N p (fun T id => K T id ++
        [(⟨al.getD name, f, items⟩ : Contribution)].filter (fun y => cid y = id)) →
      OnePost schema frags showDep js (.field pos al name args dirs items) s P N K fl := by
    intro f p nws hf hfl hc hw hinv
    refine ⟨[], nws, _, p, by simpa using hfl, by rw [hc]; exact .nil, hw, hinv, ?_⟩
    intro T _
    exact ⟨[⟨al.getD name, f, items⟩], fun rest Lr hr => .field hc hf hr, fun id => rfl⟩
  simp only [collectOne, insertField, fieldOf_lookup hI, hI.typeName] at h
  cases hf : fieldOf schema P name with
  | none =>
    rw [hf] at h
    simp only [Option.some.injEq] at h
    refine hbad [.unknownField P name pos (ω.perm ["ir.rs:663"] (AMap.keys s.parent.lookup))] []
      (by simp [← h]) (by simp) ?_ ?_
    · unfold checkSel; rw [hf]
      refine ⟨rfl, ?_⟩
      intro e he
      rw [List.mem_singleton.1 he]
      exact ⟨_, hI.lookup, ω.isPerm _ _⟩
    · unfold warnSel; rw [hf]; simp
  | some f =>
    obtain ⟨hni, hcomp⟩ := hcon P name f hf
    rw [hf] at h
    simp only at h
    by_cases he : items.isEmpty = true
    · rw [if_pos he] at h
      by_cases hc : f.type.definition.isComplex = true
      · rw [if_pos hc] at h
        simp only [Option.some.injEq] at h
        refine hbad [.missingSelectionSetOnType f.type.name pos] [] (by simp [← h]) (by simp) ?_ ?_
        · unfold checkSel; rw [hf]; simp [hc, he, IrError.strip, ErrsOk, GoodNames]
        · unfold warnSel; rw [hf]; simp [hc, he]
      · rw [if_neg hc] at h
        obtain ⟨p, hp, hinv⟩ := insertAll_inv ω hI ⟨al.getD name, f, items⟩ (.terminal f.type.name) 0
          ⟨fun hx => hc (hcomp.2 hx), by simpa using he⟩ ⟨hni, hcomp⟩
        have hp' : CTrav.insertAll ω (al.getD name, f.type.name) f (.terminal f.type.name) s.parent =
          .ok p := hp
        rw [hp'] at h
        simp only [Option.some.injEq] at h
        refine hgood f p (if js.isLocal then depWarning showDep pos P f else []) hf ?_ ?_ ?_ hinv
        · rw [← h]
          congr 2
          exact depFinish showDep js pos P f s.warnings
        · unfold checkSel; rw [hf]; simp [hc, he]
        · unfold warnSel; rw [hf]; simp [hc, he]
    · rw [if_neg he] at h
      by_cases hc : f.type.definition.isComplex = true
      · rw [if_pos hc] at h
        have hcmp := hcomp.1 hc
        obtain ⟨fl', hfl'⟩ := Option.isSome_iff_exists.1 hcmp
        rw [new_ok hfl'] at h
        simp only at h
        have hI' := inv_empty (frags := frags) hfl' (possibleNames schema f.type.name)
          (nodup_possibleNames _)
        cases hr : rec js items (.mk f.type.name fl'
            ((possibleNames schema f.type.name).map (fun n => Obj.mk n []))) s.warnings with
        | none => rw [hr] at h; simp at h
        | some c =>
          rw [hr] at h
          simp only at h
          obtain ⟨es, nws, K', r1, r2, r3, r4, r5, r6⟩ := hrec _ _ _ _ _ _ _ _ hI' hr
          rcases result_nil r1 with ⟨rfl, r1'⟩ | ⟨hne, r1'⟩
          · -- the sub-selection is fine
            have hchk : checkSels schema frags js.isLocal f.type.name items = [] := by
              rw [← r2.1]; rfl
            rw [r1'] at h
            simp only at h
            obtain ⟨n, hrep⟩ := r5.rep
            obtain ⟨p, hp, hinv⟩ := insertAll_inv ω hI ⟨al.getD name, f, items⟩ (.complex c.parent)
              (n + 1) ⟨by simpa using he, r5.typeName, r5.lookup, r5.names, K', hrep, by
                intro T hT
                rw [r5.names] at hT
                obtain ⟨L, hL, hK⟩ := r6 T hT
                refine ⟨L, ⟨[L], ?_, by simp⟩, fun id' => by rw [hK]; rfl⟩
                exact .cons (collX_false hL hchk) .nil⟩ ⟨hni, hcomp⟩
            have hp' : CTrav.insertAll ω (al.getD name, f.type.name) f (.complex c.parent) s.parent =
              .ok p := hp
            rw [hp'] at h
            simp only [Option.some.injEq] at h
            refine hgood f p (nws ++ if js.isLocal then depWarning showDep pos P f else []) hf ?_ ?_ ?_
              hinv
            · rw [← h]
              congr 2
              rw [depFinish showDep js pos P f c.warnings, r3, List.append_assoc]
            · unfold checkSel; rw [hf]; simp [hc, he, hchk]
            · unfold warnSel; rw [hf]
              simp only [hc, he, if_true, List.map_append, r4]
              cases hjs : js.isLocal with
              | false => simp
              | true => rw [hjs] at hchk; simp [hchk]
          · -- errors below
            rw [r1'] at h
            simp only [Option.some.injEq] at h
            refine hbad es nws (by rw [← h, r3]) hne ?_ ?_
            · unfold checkSel; rw [hf]; simpa [hc, he] using r2
            · unfold warnSel; rw [hf]
              simp only [hc, he, if_true, r4]
              cases hjs : js.isLocal with
              | false => simp
              | true =>
                rw [hjs] at r2
                have : (checkSels schema frags true f.type.name items).isEmpty = false := by
                  rw [← r2.1]
                  cases es with
                  | nil => exact absurd rfl hne
                  | cons e es => rfl
                simp [this]
      · rw [if_neg hc] at h
        simp only [Option.some.injEq] at h
        refine hbad [.selectionSetOnWrongType f.type.name pos] [] (by simp [← h]) (by simp) ?_ ?_
        · unfold checkSel; rw [hf]; simp [hc, he, IrError.strip, ErrsOk, GoodNames]
        · unfold warnSel; rw [hf]; simp [hc, he]

/-- The common part of inline fragments and spreads. -/
theorem collectSpread_post (ω : Hash) (showDep : Bool) (rec : CollectFn)
    (hrec : RecOk schema frags showDep rec) (js : JumpState) (C : String) (pos : Pos)
    (items : List Selection) (s : LoopSt) {P : String} {N : List String} {K : Groups}
    (hI : Inv schema frags P N s.parent K) (hN : N.Nodup) (fl : Flow)
    (h : collectSpread ω ⟨schema, showDep, frags⟩ rec C pos items js s = some fl) :
    ∃ es nws K' parent', fl = .next ⟨s.errors ++ es, parent', s.warnings ++ nws⟩ ∧
      ErrsOk schema frags es (if js.isLocal then
        if (fieldsOf schema C).isSome then checkSels schema frags true C items
        else [conditionError schema C pos] else []) ∧
      nws.map Warning.norm = ((if (fieldsOf schema C).isSome then
        (if js.isFullyJumped then [] else narrowWarning schema pos C N) ++
        (if js.isLocal then warnSels schema frags showDep C (narrowed schema C N) items else [])
        else [])).map Warning.norm ∧
      Inv schema frags P N parent' K' ∧
      ∀ T ∈ N, ∃ L, ((T ∈ possibleTypes schema C ∧ checkSels schema frags js.isLocal C items = [] ∧
          CollX schema frags T js.isLocal C items L) ∨
          ((T ∈ possibleTypes schema C → checkSels schema frags js.isLocal C items ≠ []) ∧ L = [])) ∧
        ∀ id, K' T id = K T id ++ L.filter (fun x => cid x = id) := by
  unfold collectSpread at h
  cases hC : fieldsOf schema C with
  | none =>
    have hcl : s.parent.cloneForTypeSpread ω schema C pos js s.warnings =
        .error (conditionError schema C pos) := by
      unfold CTrav.cloneForTypeSpread; rw [new_error hC]
    rw [hcl] at h
    simp only [Option.some.injEq] at h
    have hposs : possibleTypes schema C = [] := by
      unfold fieldsOf at hC
      unfold possibleTypes
      cases ht : schema.getType C with
      | none => rfl
      | some t =>
        rw [ht] at hC
        simp only at hC ⊢
        cases hd : t.definition with
        | object f => rw [hd] at hC; simp at hC
        | interface n f ps => rw [hd] at hC; simp at hC
        | union n ps f => rw [hd] at hC; simp at hC
        | _ => rfl
    have hstrip : (conditionError schema C pos).strip = conditionError schema C pos := by
      unfold conditionError
      cases schema.getType C with
      | none => rfl
      | some t => simp only; cases t.definition <;> rfl
    refine ⟨if js.isLocal then [conditionError schema C pos] else [], [], K, s.parent, ?_, ?_, ?_,
      hI, ?_⟩
    · rw [← h]; cases js.isLocal <;> simp
    · have hg : GoodNames schema frags (conditionError schema C pos) := by
        unfold conditionError
        cases schema.getType C with
        | none => trivial
        | some t => simp only; cases t.definition <;> trivial
      cases js.isLocal <;> simp [hstrip, ErrsOk, hg]
    · simp
    · intro T _
      exact ⟨[], .inr ⟨by rw [hposs]; simp, rfl⟩, by simp⟩
  | some cfl =>
    rw [clone_ok ω hI hC] at h
    simp only at h
    have hI' := inv_empty (frags := frags) hC (narrowed schema C N)
      ((nodup_possibleNames C).sublist List.filter_sublist)
    generalize hnw : (if js.isFullyJumped then [] else
      if (narrowed schema C N).isEmpty then
        [Warning.overFragmentNarrowing pos (ω.perm ["ir.rs:324"] N) C] else []) = nw at h
    have hnwn : nw.map Warning.norm = (if js.isFullyJumped then [] else
        narrowWarning schema pos C N).map Warning.norm := by
      rw [← hnw]
      unfold narrowWarning
      cases js.isFullyJumped with
      | true => rfl
      | false =>
        cases (narrowed schema C N).isEmpty with
        | false => rfl
        | true =>
          simp only [if_true, List.map_cons, List.map_nil, Warning.norm, Bool.false_eq_true, if_false,
            sortStr_eq_of_perm (ω.isPerm ["ir.rs:324"] N)]
    cases hr : rec js items (.mk C cfl ((narrowed schema C N).map (fun n => Obj.mk n [])))
        (s.warnings ++ nw) with
    | none => rw [hr] at h; simp at h
    | some c =>
      rw [hr] at h
      simp only at h
      obtain ⟨es, nws, K', r1, r2, r3, r4, r5, r6⟩ := hrec _ _ _ _ _ _ _ _ hI' hr
      have hw : (nw ++ nws).map Warning.norm = ((if js.isFullyJumped then [] else
          narrowWarning schema pos C N) ++ (if js.isLocal then
            warnSels schema frags showDep C (narrowed schema C N) items else [])).map Warning.norm := by
        rw [List.map_append, List.map_append, hnwn, r4]
      rcases result_nil r1 with ⟨rfl, r1'⟩ | ⟨hne, r1'⟩
      · have hchk : checkSels schema frags js.isLocal C items = [] := by rw [← r2.1]; rfl
        rw [r1'] at h
        simp only at h
        obtain ⟨p, hp, hinv⟩ := merge_inv ω r5 hI
        rw [hp] at h
        simp only [Option.some.injEq] at h
        refine ⟨[], nw ++ nws, _, p, ?_, ?_, by simpa using hw, hinv, ?_⟩
        · rw [← h, r3]; simp
        · cases hjs : js.isLocal with
          | false => simpa using ErrsOk.nil
          | true => rw [hjs] at hchk; simpa [hchk] using ErrsOk.nil
        · intro T hT
          by_cases hx : T ∈ narrowed schema C N
          · obtain ⟨L, hL, hK⟩ := r6 T hx
            have hx' : T ∈ possibleTypes schema C :=
              (mem_possibleNames C T).1 (List.mem_filter.1 hx).1
            refine ⟨L, .inl ⟨hx', hchk, hL⟩, ?_⟩
            intro id
            simp only [hx, if_true, hK, List.nil_append]
          · refine ⟨[], .inr ⟨?_, rfl⟩, by simp [hx]⟩
            intro hx'
            exfalso
            exact hx (List.mem_filter.2 ⟨(mem_possibleNames C T).2 hx', by simpa using hT⟩)
      · have hchk : checkSels schema frags js.isLocal C items ≠ [] := by
          rw [← r2.1]; simpa using hne
        rw [r1'] at h
        simp only [Option.some.injEq] at h
        refine ⟨if js.isLocal then es else [], nw ++ nws, K, s.parent, ?_, ?_, by simpa using hw, hI,
          ?_⟩
        · rw [← h, r3]
          cases js.isLocal <;> simp
        · cases hjs : js.isLocal with
          | false => simpa using ErrsOk.nil
          | true => rw [hjs] at r2; simpa using r2
        · intro T _
          exact ⟨[], .inr ⟨fun _ => hchk, rfl⟩, by simp⟩

theorem collectOne_inline (ω : Hash) (showDep : Bool) (rec : CollectFn)
    (hrec : RecOk schema frags showDep rec) (js : JumpState) (pos : Pos) (cond : Option String)
    (dirs : List Directive) (items : List Selection) (s : LoopSt) {P : String} {N : List String}
    {K : Groups} (hI : Inv schema frags P N s.parent K) (hN : N.Nodup) (fl : Flow)
    (h : collectOne ω ⟨schema, showDep, frags⟩ rec js (.inline pos cond dirs items) s = some fl) :
    OnePost schema frags showDep js (.inline pos cond dirs items) s P N K fl := by
  simp only [collectOne] at h
  cases cond with
  | none =>
    simp only [Option.some.injEq] at h
    refine ⟨[.missingTypeConditionOnInlineFragment pos], [], K, s.parent, by simp [← h], ?_, ?_, hI, ?_⟩
    · unfold checkSel; simp [ErrsOk, IrError.strip, GoodNames]
    · unfold warnSel; simp
    · intro T _
      exact ⟨[], fun rest Lr hr => .inlineOut (by simp) hr, by simp⟩
  | some C =>
    simp only at h
    obtain ⟨es, nws, K', parent', h1, h2, h3, h4, h5⟩ :=
      collectSpread_post ω showDep rec hrec js.jumpInline C pos items s hI hN fl h
    have hl : js.jumpInline.isLocal = js.isLocal := by cases js <;> rfl
    have hj : js.jumpInline.isFullyJumped = !js.isLocal := by cases js <;> rfl
    rw [hl] at h2 h5
    refine ⟨es, nws, K', parent', h1, ?_, ?_, h4, ?_⟩
    · unfold checkSel
      cases hjs : js.isLocal <;> rw [hjs] at h2 <;> exact h2
    · rw [h3, hl, hj]
      cases js.isLocal with
      | false => simp
      | true =>
        conv => rhs; unfold warnSel
        simp
    · intro T hT
      obtain ⟨L, hL, hK⟩ := h5 T hT
      refine ⟨L, ?_, hK⟩
      intro rest Lr hr
      rcases hL with ⟨a, b, c⟩ | ⟨a, rfl⟩
      · exact .inlineIn a b c hr
      · refine .inlineOut ?_ hr
        intro C' hC'
        injection hC' with e
        subst e
        exact a

theorem collectOne_spread (ω : Hash) (showDep : Bool) (rec : CollectFn)
    (hrec : RecOk schema frags showDep rec) (js : JumpState) (pos : Pos) (name : String)
    (dirs : List Directive) (s : LoopSt) {P : String} {N : List String}
    {K : Groups} (hI : Inv schema frags P N s.parent K) (hN : N.Nodup) (fl : Flow)
    (h : collectOne ω ⟨schema, showDep, frags⟩ rec js (.spread pos name dirs) s = some fl) :
    OnePost schema frags showDep js (.spread pos name dirs) s P N K fl := by
  simp only [collectOne] at h
  cases hg : AMap.get? frags name with
  | none =>
    rw [hg] at h
    simp only [Option.some.injEq] at h
    refine ⟨[.unknownFragment name pos (ω.perm ["ir.rs:760"] (AMap.keys frags))], [], K, s.parent,
      by simp [← h], ?_, ?_, hI, ?_⟩
    · unfold checkSel; rw [hg]
      refine ⟨rfl, ?_⟩
      intro e he
      rw [List.mem_singleton.1 he]
      exact ω.isPerm _ _
    · unfold warnSel; rw [hg]; simp
    · intro T _
      exact ⟨[], fun rest Lr hr => .spreadOut (by simp [hg]) hr, by simp⟩
  | some fd =>
    rw [hg] at h
    simp only at h
    obtain ⟨es, nws, K', parent', h1, h2, h3, h4, h5⟩ :=
      collectSpread_post ω showDep rec hrec js.jumpForeign fd.typeCond pos fd.items s hI hN fl h
    have hl : js.jumpForeign.isLocal = false := by cases js <;> rfl
    have hj : js.jumpForeign.isFullyJumped = !js.isLocal := by cases js <;> rfl
    rw [hl] at h2 h5
    refine ⟨es, nws, K', parent', h1, ?_, ?_, h4, ?_⟩
    · unfold checkSel
      rw [hg]; exact h2
    · rw [h3, hl, hj]
      cases js.isLocal with
      | false => simp
      | true =>
        conv => rhs; unfold warnSel
        rw [hg]
        simp
    · intro T hT
      obtain ⟨L, hL, hK⟩ := h5 T hT
      refine ⟨L, ?_, hK⟩
      intro rest Lr hr
      rcases hL with ⟨a, b, c⟩ | ⟨a, rfl⟩
      · exact .spreadIn hg a b c hr
      · refine .spreadOut ?_ hr
        intro fd' hfd'
        rw [hg] at hfd'
        injection hfd' with e
        subst e
        exact a

theorem collectLoop_post (ω : Hash) (hcon : Consistent schema) (showDep : Bool) (rec : CollectFn)
    (hrec : RecOk schema frags showDep rec) (js : JumpState) (items : List Selection) :
    ∀ (s : LoopSt) (P : String) (N : List String) (K : Groups) (c : Collected),
    Inv schema frags P N s.parent K →
    collectLoop ω ⟨schema, showDep, frags⟩ rec js items s = some c →
    ∃ es nws K', c.result = (if (s.errors ++ es).isEmpty then .ok () else .error (s.errors ++ es)) ∧
      ErrsOk schema frags es (checkSels schema frags js.isLocal P items) ∧
      c.warnings = s.warnings ++ nws ∧
      nws.map Warning.norm =
        (if js.isLocal then warnSels schema frags showDep P N items else []).map Warning.norm ∧
      Inv schema frags P N c.parent K' ∧
      ∀ T ∈ N, ∃ L, CollX schema frags T js.isLocal P items L ∧
        ∀ id, K' T id = K T id ++ L.filter (fun x => cid x = id) := by
  induction items with
  | nil =>
    intro s P N K c hI h
    simp only [collectLoop, Option.some.injEq] at h
    subst h
    refine ⟨[], [], K, by simp, by simpa [checkSels] using ErrsOk.nil, by simp, by simp [warnSels], hI, ?_⟩
    intro T _
    exact ⟨[], .nil, by simp⟩
  | cons sel items ih =>
    intro s P N K c hI h
    have hN : N.Nodup := by
      obtain ⟨n, hn⟩ := hI.rep
      rw [← hI.names]; exact hn.1
    simp only [collectLoop] at h
    cases ho : collectOne ω ⟨schema, showDep, frags⟩ rec js sel s with
    | none => rw [ho] at h; simp at h
    | some fl =>
      rw [ho] at h
      have hone : OnePost schema frags showDep js sel s P N K fl := by
        cases sel with
        | field pos al name args dirs its =>
          exact collectOne_field ω hcon showDep rec hrec js pos al name args dirs its s hI fl ho
        | «inline» pos cond dirs its =>
          exact collectOne_inline ω showDep rec hrec js pos cond dirs its s hI hN fl ho
        | spread pos name dirs =>
          exact collectOne_spread ω showDep rec hrec js pos name dirs s hI hN fl ho
      obtain ⟨es, nws, K1, p, rfl, h2, h3, h4, h5⟩ := hone
      simp only at h
      obtain ⟨es', nws', K2, i1, i2, i3, i4, i5, i6⟩ := ih _ P N K1 c h4 h
      refine ⟨es ++ es', nws ++ nws', K2, ?_, ?_, ?_, ?_, i5, ?_⟩
      · rw [i1]; simp
      · simpa [checkSels] using h2.append i2
      · rw [i3]; simp
      · rw [List.map_append, h3, i4]
        cases js.isLocal <;> simp [warnSels]
      · intro T hT
        obtain ⟨L, hL, hK⟩ := h5 T hT
        obtain ⟨L', hL', hK'⟩ := i6 T hT
        refine ⟨L ++ L', hL _ _ hL', ?_⟩
        intro id
        rw [hK', hK, List.filter_append, List.append_assoc]

/-- The main lemma about `collect`. -/
theorem collect_post (ω : Hash) (hcon : Consistent schema) (showDep : Bool) (n : Nat) :
    RecOk schema frags showDep (collect ω ⟨schema, showDep, frags⟩ n) := by
  induction n with
  | zero => intro js items parent ws c P N K _ h; simp [collect] at h
  | succ n ih =>
    intro js items parent ws c P N K hI h
    simp only [collect] at h
    obtain ⟨es, nws, K', h1, h2, h3, h4, h5, h6⟩ :=
      collectLoop_post ω hcon showDep _ ih js items ⟨[], parent, ws⟩ P N K c hI h
    exact ⟨es, nws, K', by simpa using h1, h2, h3, h4, h5, h6⟩

end Qlc
