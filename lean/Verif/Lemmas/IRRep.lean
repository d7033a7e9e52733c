import Verif.Spec.Selections
import Verif.Lemmas.Basic
import Mathlib.Data.List.Forall2
/-
What a traversal represents: for every object type and every (response key, type name), the list of
collected fields.  Inserting and merging append to these lists.
-/
set_option autoImplicit false

namespace Qlc
open Spec

/-- The slot of `UniqueFields` a contribution goes to. -/
def cid (c : Contribution) : FieldId := (c.key, c.field.type.name)

/-- The error for selecting on a type that is not composite. -/
def conditionError (schema : Schema) (P : String) (pos : Pos) : IrError :=
  match schema.getType P with
  | none => .missingType P
  | some t =>
    match t.definition with
    | .inputObject _ _ => .unexpectedComplexTraversal P
    | _ => .selectionSetOnWrongType P pos

mutual
/-- The errors of one selection.  `loc` tells whether it is written in the compiled file; in an imported
fragment the errors below an inline fragment are dropped. -/
def checkSel (schema : Schema) (frags : Frags) (loc : Bool) (P : String) : Selection → List IrError
  | .field pos _ name _ _ items =>
    match fieldOf schema P name with
    | none => [.unknownField P name pos []]
    | some f =>
      if f.type.definition.isComplex then
        if items.isEmpty then [.missingSelectionSetOnType f.type.name pos]
        else checkSels schema frags loc f.type.name items
      else if items.isEmpty then []
      else [.selectionSetOnWrongType f.type.name pos]
  | .inline pos none _ _ => [.missingTypeConditionOnInlineFragment pos]
  | .inline pos (some C) _ items =>
    if loc then
      if (fieldsOf schema C).isSome then checkSels schema frags loc C items
      else [conditionError schema C pos]
    else []
  | .spread pos name _ =>
    if (AMap.get? frags name).isSome then [] else [.unknownFragment name pos []]
/-- The errors of a selection set, in document order. -/
def checkSels (schema : Schema) (frags : Frags) (loc : Bool) (P : String) :
    List Selection → List IrError
  | [] => []
  | s :: rest => checkSel schema frags loc P s ++ checkSels schema frags loc P rest
end

/-- What the compiler collects: as `Coll`, but invalid parts contribute nothing. -/
inductive CollX (schema : Schema) (frags : Frags) (T : String) :
    Bool → String → List Selection → List Contribution → Prop where
  | nil {loc : Bool} {P : String} : CollX schema frags T loc P [] []
  | field {loc : Bool} {P : String} {pos : Pos} {al : Option String} {name : String}
      {args : List (String × Value)} {dirs : List Directive} {items rest : List Selection}
      {f : SField} {L : List Contribution} :
      checkSel schema frags loc P (.field pos al name args dirs items) = [] →
      fieldOf schema P name = some f → CollX schema frags T loc P rest L →
      CollX schema frags T loc P (.field pos al name args dirs items :: rest)
        (⟨al.getD name, f, items⟩ :: L)
  | fieldBad {loc : Bool} {P : String} {pos : Pos} {al : Option String} {name : String}
      {args : List (String × Value)} {dirs : List Directive} {items rest : List Selection}
      {L : List Contribution} :
      checkSel schema frags loc P (.field pos al name args dirs items) ≠ [] →
      CollX schema frags T loc P rest L →
      CollX schema frags T loc P (.field pos al name args dirs items :: rest) L
  | inlineIn {loc : Bool} {P C : String} {pos : Pos} {dirs : List Directive}
      {items rest : List Selection} {L₁ L : List Contribution} :
      T ∈ possibleTypes schema C → checkSels schema frags loc C items = [] →
      CollX schema frags T loc C items L₁ → CollX schema frags T loc P rest L →
      CollX schema frags T loc P (.inline pos (some C) dirs items :: rest) (L₁ ++ L)
  | inlineOut {loc : Bool} {P : String} {cond : Option String} {pos : Pos} {dirs : List Directive}
      {items rest : List Selection} {L : List Contribution} :
      (∀ C, cond = some C → T ∈ possibleTypes schema C → checkSels schema frags loc C items ≠ []) →
      CollX schema frags T loc P rest L →
      CollX schema frags T loc P (.inline pos cond dirs items :: rest) L
  | spreadIn {loc : Bool} {P : String} {pos : Pos} {name : String} {dirs : List Directive}
      {fd : FragmentDef} {rest : List Selection} {L₁ L : List Contribution} :
      AMap.get? frags name = some fd → T ∈ possibleTypes schema fd.typeCond →
      checkSels schema frags false fd.typeCond fd.items = [] →
      CollX schema frags T false fd.typeCond fd.items L₁ → CollX schema frags T loc P rest L →
      CollX schema frags T loc P (.spread pos name dirs :: rest) (L₁ ++ L)
  | spreadOut {loc : Bool} {P : String} {pos : Pos} {name : String} {dirs : List Directive}
      {rest : List Selection} {L : List Contribution} :
      (∀ fd, AMap.get? frags name = some fd → T ∈ possibleTypes schema fd.typeCond →
        checkSels schema frags false fd.typeCond fd.items ≠ []) →
      CollX schema frags T loc P rest L → CollX schema frags T loc P (.spread pos name dirs :: rest) L

/-- Collecting several selection sets of one type, in order. -/
def CollManyX (schema : Schema) (frags : Frags) (T P : String) (sets : List (List Selection))
    (L : List Contribution) : Prop :=
  ∃ Ls, List.Forall₂ (CollX schema frags T false P) sets Ls ∧ L = Ls.flatten

/-- For every object type and slot, the collected fields. -/
abbrev Groups := String → FieldId → List Contribution

/-- The object type names of a traversal. -/
def CTrav.names (c : CTrav) : List String := c.objs.map Obj.typeName

/-- The possible types, once each. -/
def possibleNames (schema : Schema) (P : String) : List String :=
  (possibleTypes schema P).foldl setInsert []

/-- The traversal of one slot represents the contributions to it. -/
def RepTrav (schema : Schema) (frags : Frags) (R : CTrav → Groups → Prop) (id : FieldId)
    (cs : List Contribution) : Trav → Prop
  | .terminal _ => ¬ IsComposite schema id.2 ∧ ∀ c ∈ cs, c.items = []
  | .complex sub => (∀ c ∈ cs, c.items ≠ []) ∧ sub.typeName = id.2 ∧
      fieldsOf schema id.2 = some sub.lookup ∧ sub.names = possibleNames schema id.2 ∧
      ∃ K, R sub K ∧ ∀ T ∈ sub.names, ∃ L,
        CollManyX schema frags T id.2 (cs.map Contribution.items) L ∧
        ∀ id', K T id' = L.filter (fun c => cid c = id')

/-- The entries of one object represent the contributions to it. -/
structure RepFields (schema : Schema) (frags : Frags) (R : CTrav → Groups → Prop)
    (fs : List FEntry) (G : FieldId → List Contribution) : Prop where
  nodup : (fs.map FEntry.id).Nodup
  slots : ∀ id, id ∈ fs.map FEntry.id ↔ G id ≠ []
  good : ∀ id, ∀ c ∈ G id, cid c = id ∧ c.field.type.definition ≠ .inputObject ∧
    (c.field.type.definition.isComplex = true ↔ IsComposite schema id.2)
  entry : ∀ e ∈ fs, (G e.id).head?.map Contribution.field = some e.field ∧
    RepTrav schema frags R e.id (G e.id) e.trav

/-- A traversal represents the groups; `n` bounds its depth. -/
def RepN (schema : Schema) (frags : Frags) : Nat → CTrav → Groups → Prop
  | 0 => fun _ _ => False
  | n + 1 => fun c K => c.names.Nodup ∧
      ∀ T fs, Obj.mk T fs ∈ c.objs → RepFields schema frags (RepN schema frags n) fs (K T)

theorem Obj.typeName_mk (n : String) (f : List FEntry) : (Obj.mk n f).typeName = n := rfl
theorem Obj.fields_mk (n : String) (f : List FEntry) : (Obj.mk n f).fields = f := rfl
theorem FEntry.id_mk (i : FieldId) (f : SField) (t : Trav) : (FEntry.mk i f t).id = i := rfl
theorem FEntry.field_mk (i : FieldId) (f : SField) (t : Trav) : (FEntry.mk i f t).field = f := rfl
theorem FEntry.trav_mk (i : FieldId) (f : SField) (t : Trav) : (FEntry.mk i f t).trav = t := rfl

variable {schema : Schema} {frags : Frags}

theorem RepTrav.mono {R R' : CTrav → Groups → Prop} (h : ∀ c K, R c K → R' c K) {id : FieldId}
    {cs : List Contribution} {t : Trav} (ht : RepTrav schema frags R id cs t) :
    RepTrav schema frags R' id cs t := by
  cases t with
  | terminal => exact ht
  | complex sub =>
    obtain ⟨a, b, c, d, K, e, f⟩ := ht
    exact ⟨a, b, c, d, K, h _ _ e, f⟩

theorem RepFields.mono {R R' : CTrav → Groups → Prop} (h : ∀ c K, R c K → R' c K)
    {fs : List FEntry} {G : FieldId → List Contribution} (hf : RepFields schema frags R fs G) :
    RepFields schema frags R' fs G :=
  ⟨hf.nodup, hf.slots, hf.good, fun e he => ⟨(hf.entry e he).1, (hf.entry e he).2.mono h⟩⟩

theorem RepN.succ {n : Nat} : ∀ {c : CTrav} {K : Groups}, RepN schema frags n c K →
    RepN schema frags (n + 1) c K := by
  induction n with
  | zero => intro c K h; exact h.elim
  | succ n ih => intro c K h; exact ⟨h.1, fun T fs hm => (h.2 T fs hm).mono (fun c K => ih)⟩

theorem RepN.mono {n m : Nat} (hnm : n ≤ m) {c : CTrav} {K : Groups} (h : RepN schema frags n c K) :
    RepN schema frags m c K := by
  induction hnm with
  | refl => exact h
  | step _ ih => exact ih.succ

/-! ### Lists of updates -/

theorem map_self {α : Type} {f : α → α} {l : List α} (h : ∀ x ∈ l, f x = x) : l.map f = l := by
  induction l with
  | nil => rfl
  | cons a l ih =>
    rw [List.map_cons, h a (List.mem_cons_self ..), ih (fun x hx => h x (List.mem_cons_of_mem _ hx))]

theorem perm_map_inv {α β : Type} (g : α → β) {l₂ l₁ : List β} (h : l₂.Perm l₁) :
    ∀ l : List α, l₁ = l.map g → ∃ l' : List α, l'.Perm l ∧ l₂ = l'.map g := by
  induction h with
  | nil => intro l hl; exact ⟨[], by cases l <;> simp_all, rfl⟩
  | cons x _ ih =>
    intro l hl
    cases l with
    | nil => simp at hl
    | cons a l =>
      simp only [List.map_cons, List.cons.injEq] at hl
      obtain ⟨l', hp, he⟩ := ih l hl.2
      exact ⟨a :: l', hp.cons a, by simp [hl.1, he]⟩
  | swap x y l₁ =>
    intro l hl
    cases l with
    | nil => simp at hl
    | cons a l => cases l with
      | nil => simp at hl
      | cons b l =>
        simp only [List.map_cons, List.cons.injEq] at hl
        exact ⟨b :: a :: l, List.Perm.swap .., by simp [hl.1, hl.2.1, hl.2.2]⟩
  | trans _ _ ih1 ih2 =>
    intro l hl
    obtain ⟨l', hp, he⟩ := ih2 l hl
    obtain ⟨l'', hp', he'⟩ := ih1 l' he
    exact ⟨l'', hp'.trans hp, he'⟩

theorem foldE_map {ε α β σ : Type} (f : σ → β → Except ε σ) (g : α → β) (l : List α) :
    ∀ s, foldE f s (l.map g) = foldE (fun s a => f s (g a)) s l := by
  induction l with
  | nil => intro s; rfl
  | cons a l ih =>
    intro s
    simp only [List.map_cons, foldE]
    cases f s (g a) with
    | error e => rfl
    | ok s' => exact ih s'

/-- `updateObj` on a present object. -/
theorem updateObj_present (T : String) (f : List FEntry → Except IrError (List FEntry))
    (u u' : List FEntry) (hf : f u = .ok u') : ∀ objs : List Obj,
    (objs.map Obj.typeName).Nodup → Obj.mk T u ∈ objs →
    updateObj T f objs = .ok (objs.map (fun o => if o.typeName = T then .mk T u' else o)) := by
  intro objs
  induction objs with
  | nil => intro _ h; simp at h
  | cons o objs ih =>
    intro hn hm
    obtain ⟨T', v⟩ := o
    simp only [List.map_cons, List.nodup_cons, Obj.typeName_mk] at hn
    rcases List.mem_cons.1 hm with e | hm
    · injection e with e1 e2
      subst e1; subst e2
      simp only [updateObj, if_true, hf, List.map_cons, Obj.typeName_mk]
      congr 2
      refine (map_self ?_).symm
      intro o ho
      rw [if_neg]
      intro e
      exact hn.1 (List.mem_map.2 ⟨o, ho, e⟩)
    · have hne : T' ≠ T := by
        rintro rfl
        exact hn.1 (List.mem_map.2 ⟨_, hm, rfl⟩)
      simp only [updateObj, hne, if_false, ih hn.2 hm, List.map_cons, Obj.typeName_mk]

theorem updateObj_absent (T : String) (f : List FEntry → Except IrError (List FEntry)) :
    ∀ objs : List Obj, T ∉ objs.map Obj.typeName → updateObj T f objs = .ok objs := by
  intro objs
  induction objs with
  | nil => intro _; rfl
  | cons o objs ih =>
    intro hm
    obtain ⟨T', v⟩ := o
    simp only [List.map_cons, List.mem_cons, not_or, Obj.typeName_mk] at hm
    simp only [updateObj, if_neg (Ne.symm hm.1), ih hm.2]

/-- Running updates for pairwise different objects. -/
theorem foldE_updates (R : String → List FEntry → List FEntry → Prop)
    (ups : List (String × (List FEntry → Except IrError (List FEntry)))) :
    (ups.map Prod.fst).Nodup → ∀ objs : List Obj, (objs.map Obj.typeName).Nodup →
    (∀ m ∈ ups, ∀ u, Obj.mk m.1 u ∈ objs → ∃ u', m.2 u = .ok u' ∧ R m.1 u u') →
    ∃ objs', foldE (fun acc m => updateObj m.1 m.2 acc) objs ups = .ok objs' ∧
      objs'.map Obj.typeName = objs.map Obj.typeName ∧
      ∀ T u', Obj.mk T u' ∈ objs' → ∃ u, Obj.mk T u ∈ objs ∧
        ((T ∈ ups.map Prod.fst ∧ R T u u') ∨ (T ∉ ups.map Prod.fst ∧ u' = u)) := by
  induction ups with
  | nil =>
    intro _ objs _ _
    exact ⟨objs, rfl, rfl, fun T u' h => ⟨u', h, .inr ⟨by simp, rfl⟩⟩⟩
  | cons m ups ih =>
    intro hn objs ho hall
    obtain ⟨T0, f⟩ := m
    simp only [List.map_cons, List.nodup_cons] at hn
    by_cases hT : T0 ∈ objs.map Obj.typeName
    · obtain ⟨o, hom, hon⟩ := List.mem_map.1 hT
      obtain ⟨T1, u0⟩ := o
      simp only [Obj.typeName_mk] at hon
      subst hon
      obtain ⟨u0', hfu, hR⟩ := hall _ (List.mem_cons_self ..) u0 hom
      have hupd := updateObj_present T1 f u0 u0' hfu objs ho hom
      have hnames : (objs.map (fun o => if o.typeName = T1 then Obj.mk T1 u0' else o)).map Obj.typeName
          = objs.map Obj.typeName := by
        rw [List.map_map]
        apply List.map_congr_left
        intro o _
        simp only [Function.comp_apply]
        split
        · rename_i e; simp [Obj.typeName_mk] at e ⊢; exact e.symm
        · rfl
      obtain ⟨objs', h1, h2, h3⟩ := ih hn.2
        (objs.map (fun o => if o.typeName = T1 then .mk T1 u0' else o)) (by rw [hnames]; exact ho) (by
          intro m hm u hu
          have hne : m.1 ≠ T1 := by
            rintro e
            exact hn.1 (List.mem_map.2 ⟨m, hm, e⟩)
          refine hall m (List.mem_cons_of_mem _ hm) u ?_
          obtain ⟨o, ho', e⟩ := List.mem_map.1 hu
          split at e
          · injection e with e1 _
            exact absurd e1.symm hne
          · rw [← e]; exact ho')
      refine ⟨objs', ?_, by rw [h2, hnames], ?_⟩
      · simp only [foldE, hupd, h1]
      · intro T u' hm'
        obtain ⟨u, hu, hcase⟩ := h3 T u' hm'
        obtain ⟨o, ho', e⟩ := List.mem_map.1 hu
        split at e
        · rename_i hoT
          injection e with e1 e2
          subst e1
          rcases hcase with ⟨h, _⟩ | ⟨_, e3⟩
          · exact absurd h hn.1
          · refine ⟨u0, hom, .inl ⟨by simp, ?_⟩⟩
            rw [e3, ← e2]; exact hR
        · rename_i hoT
          subst e
          refine ⟨u, ho', ?_⟩
          simp only [Obj.typeName_mk] at hoT
          rcases hcase with ⟨h, h'⟩ | ⟨h, h'⟩
          · exact .inl ⟨List.mem_cons_of_mem _ h, h'⟩
          · exact .inr ⟨by simp [hoT, h], h'⟩
    · have hupd := updateObj_absent T0 f objs hT
      obtain ⟨objs', h1, h2, h3⟩ := ih hn.2 objs ho
        (fun m hm u hu => hall m (List.mem_cons_of_mem _ hm) u hu)
      refine ⟨objs', by simp only [foldE, hupd, h1], h2, ?_⟩
      intro T u' hm'
      obtain ⟨u, hu, hcase⟩ := h3 T u' hm'
      refine ⟨u, hu, ?_⟩
      rcases hcase with ⟨h, h'⟩ | ⟨h, h'⟩
      · exact .inl ⟨List.mem_cons_of_mem _ h, h'⟩
      · refine .inr ⟨?_, h'⟩
        simp only [List.map_cons, List.mem_cons, not_or]
        refine ⟨?_, h⟩
        rintro rfl
        exact hT (List.mem_map.2 ⟨_, hu, rfl⟩)

/-! ### One slot -/

theorem uInsert_absent (id : FieldId) (f : SField) (t : Trav) (g : Trav → Except IrError Trav) :
    ∀ fs : List FEntry, id ∉ fs.map FEntry.id → uInsert id f t g fs = .ok (fs ++ [.mk id f t]) := by
  intro fs
  induction fs with
  | nil => intro _; rfl
  | cons e fs ih =>
    intro h
    obtain ⟨id', f', t'⟩ := e
    simp only [List.map_cons, List.mem_cons, not_or, FEntry.id_mk] at h
    simp only [uInsert, if_neg (Ne.symm h.1), ih h.2, List.cons_append]

theorem uInsert_present (id : FieldId) (f f' : SField) (t t' t'' : Trav)
    (g : Trav → Except IrError Trav) (hg : g t' = .ok t'') : ∀ fs : List FEntry,
    (fs.map FEntry.id).Nodup → FEntry.mk id f' t' ∈ fs → uInsert id f t g fs =
      .ok (fs.map (fun e => if e.id = id then .mk id e.field t'' else e)) := by
  intro fs
  induction fs with
  | nil => intro _ h; simp at h
  | cons e fs ih =>
    intro hn hm
    obtain ⟨id0, f0, t0⟩ := e
    simp only [List.map_cons, List.nodup_cons, FEntry.id_mk] at hn
    rcases List.mem_cons.1 hm with e | hm
    · injection e with e1 e2 e3
      subst e1; subst e2; subst e3
      simp only [uInsert, if_true, hg, List.map_cons, FEntry.id_mk, FEntry.field_mk]
      congr 2
      refine (map_self ?_).symm
      intro o ho
      rw [if_neg]
      intro e
      exact hn.1 (List.mem_map.2 ⟨o, ho, e⟩)
    · have hne : id0 ≠ id := by
        rintro rfl
        exact hn.1 (List.mem_map.2 ⟨_, hm, rfl⟩)
      simp only [uInsert, hne, if_false, ih hn.2 hm, List.map_cons, FEntry.id_mk]

/-- Merging works and concatenates the contributions. -/
def MergeOk (schema : Schema) (frags : Frags) (ω : Hash) (R : CTrav → Groups → Prop) : Prop :=
  ∀ id cso css tO tS, RepTrav schema frags R id cso tO → RepTrav schema frags R id css tS →
    ∃ t, Trav.merge ω tO tS = .ok t ∧ RepTrav schema frags R id (css ++ cso) t

theorem uInsert_rep {ω : Hash} {R : CTrav → Groups → Prop} (hM : MergeOk schema frags ω R)
    {fs : List FEntry} {G : FieldId → List Contribution} (h : RepFields schema frags R fs G)
    (id : FieldId) (c : Contribution) (cs : List Contribution) (f : SField) (t : Trav)
    (hf : f = c.field) (ht : RepTrav schema frags R id (c :: cs) t)
    (hgood : ∀ x ∈ c :: cs, cid x = id ∧ x.field.type.definition ≠ .inputObject ∧
      (x.field.type.definition.isComplex = true ↔ IsComposite schema id.2)) :
    ∃ fs', uInsert id f t (Trav.merge ω t) fs = .ok fs' ∧
      RepFields schema frags R fs' (fun id' => if id' = id then G id ++ c :: cs else G id') := by
  subst hf
  by_cases hin : id ∈ fs.map FEntry.id
  · obtain ⟨e, he, hid⟩ := List.mem_map.1 hin
    obtain ⟨id0, f0, t0⟩ := e
    simp only [FEntry.id_mk] at hid
    subst hid
    obtain ⟨e1, e2⟩ := h.entry _ he
    simp only [FEntry.id_mk, FEntry.field_mk, FEntry.trav_mk] at e1 e2
    obtain ⟨t', hm, hr⟩ := hM id0 _ _ _ _ ht e2
    refine ⟨_, uInsert_present id0 c.field f0 t t0 t' _ hm fs h.nodup he, ?_⟩
    have hids : (fs.map (fun e => if e.id = id0 then FEntry.mk id0 e.field t' else e)).map FEntry.id =
        fs.map FEntry.id := by
      rw [List.map_map]
      apply List.map_congr_left
      intro e _
      simp only [Function.comp_apply]
      split
      · rename_i e; simp [FEntry.id_mk] at e ⊢; exact e.symm
      · rfl
    refine ⟨by rw [hids]; exact h.nodup, ?_, ?_, ?_⟩
    · intro id'
      rw [hids, h.slots]
      by_cases hx : id' = id0
      · subst hx
        simp only [if_true]
        constructor
        · intro _; simp
        · intro _; exact (h.slots _).1 hin
      · simp only [hx, if_false]
    · intro id' x hx
      by_cases hx' : id' = id0
      · subst hx'
        simp only [if_true, List.mem_append] at hx
        rcases hx with hx | hx
        · exact h.good _ x hx
        · exact hgood x hx
      · simp only [hx', if_false] at hx
        exact h.good _ x hx
    · intro e he'
      obtain ⟨e0, he0, heq⟩ := List.mem_map.1 he'
      by_cases hx : e0.id = id0
      · rw [if_pos hx] at heq
        subst heq
        simp only [FEntry.id_mk, FEntry.field_mk, FEntry.trav_mk, if_true]
        obtain ⟨a1, _⟩ := h.entry e0 he0
        rw [hx] at a1
        refine ⟨?_, hr⟩
        cases hG : G id0 with
        | nil => rw [hG] at a1; simp at a1
        | cons y ys => rw [hG] at a1; simpa using a1
      · rw [if_neg hx] at heq
        subst heq
        simp only [hx, if_false]
        exact h.entry _ he0
  · refine ⟨_, uInsert_absent id c.field t _ fs hin, ?_⟩
    have hG : G id = [] := by
      by_cases hG : G id = []
      · exact hG
      · exact absurd ((h.slots id).2 hG) hin
    refine ⟨?_, ?_, ?_, ?_⟩
    · simp only [List.map_append, List.map_cons, List.map_nil]
      rw [List.nodup_append]
      refine ⟨h.nodup, by simp, ?_⟩
      intro a ha b hb
      simp only [FEntry.id_mk, List.mem_singleton] at hb
      rintro rfl
      subst hb
      exact hin ha
    · intro id'
      simp only [List.map_append, List.map_cons, List.map_nil, List.mem_append, List.mem_singleton,
        FEntry.id_mk]
      by_cases hx : id' = id
      · subst hx; simp
      · simp only [hx, or_false, if_false]; exact h.slots id'
    · intro id' x hx
      by_cases hx' : id' = id
      · subst hx'
        simp only [if_true, hG, List.nil_append] at hx
        exact hgood x hx
      · simp only [hx', if_false] at hx
        exact h.good _ x hx
    · intro e he
      rcases List.mem_append.1 he with he | he
      · have hne : e.id ≠ id := by
          intro e'
          exact hin (e' ▸ List.mem_map.2 ⟨e, he, rfl⟩)
        simp only [hne, if_false]
        exact h.entry e he
      · rw [List.mem_singleton.1 he]
        simp only [FEntry.id_mk, FEntry.field_mk, FEntry.trav_mk, if_true, hG, List.nil_append]
        exact ⟨rfl, ht⟩

theorem entryMergers_eq (ω : Hash) (fs : List FEntry) : entryMergers ω fs =
    fs.map (fun e => uInsert e.id e.field e.trav (fun s => Trav.merge ω e.trav s)) := by
  induction fs with
  | nil => rfl
  | cons e fs ih => obtain ⟨id, f, t⟩ := e; simp only [entryMergers, ih, List.map_cons]; rfl

theorem objMergers_eq (ω : Hash) (objs : List Obj) : objMergers ω objs =
    objs.map (fun o => (o.typeName, fun u =>
      foldE (fun acc (f : List FEntry → Except IrError (List FEntry)) => f acc) u
        (ω.perm ["ir.rs:260"] (entryMergers ω o.fields)))) := by
  induction objs with
  | nil => rfl
  | cons o objs ih => obtain ⟨T, fs⟩ := o; simp only [objMergers, ih, List.map_cons]; rfl

/-- Inserting several entries with different slots. -/
theorem foldE_entries {ω : Hash} {R : CTrav → Groups → Prop} (hM : MergeOk schema frags ω R)
    (Go : FieldId → List Contribution)
    (hgood : ∀ id, ∀ c ∈ Go id, cid c = id ∧ c.field.type.definition ≠ .inputObject ∧
      (c.field.type.definition.isComplex = true ↔ IsComposite schema id.2)) (es : List FEntry) :
    (es.map FEntry.id).Nodup →
    (∀ e ∈ es, (Go e.id).head?.map Contribution.field = some e.field ∧
      RepTrav schema frags R e.id (Go e.id) e.trav) →
    ∀ (fs : List FEntry) (G : FieldId → List Contribution), RepFields schema frags R fs G →
    ∃ fs', foldE (fun acc e => uInsert e.id e.field e.trav (fun s => Trav.merge ω e.trav s) acc) fs es =
        .ok fs' ∧
      RepFields schema frags R fs' (fun id => G id ++ if id ∈ es.map FEntry.id then Go id else []) := by
  induction es with
  | nil =>
    intro _ _ fs G h
    refine ⟨fs, rfl, ?_⟩
    simpa using h
  | cons e es ih =>
    intro hn hall fs G h
    simp only [List.map_cons, List.nodup_cons] at hn
    obtain ⟨h1, h2⟩ := hall e (List.mem_cons_self ..)
    cases hG : Go e.id with
    | nil => rw [hG] at h1; simp at h1
    | cons c cs =>
      rw [hG] at h1 h2
      simp only [List.head?_cons, Option.map_some, Option.some.injEq] at h1
      obtain ⟨fs1, hf1, hr1⟩ := uInsert_rep hM h e.id c cs e.field e.trav h1.symm h2
        (by rw [← hG]; exact hgood e.id)
      obtain ⟨fs2, hf2, hr2⟩ := ih hn.2 (fun e' he' => hall e' (List.mem_cons_of_mem _ he')) fs1 _ hr1
      refine ⟨fs2, ?_, ?_⟩
      · simp only [foldE]
        rw [show uInsert e.id e.field e.trav (fun s => Trav.merge ω e.trav s) fs = .ok fs1 from hf1]
        exact hf2
      · have : (fun id => (if id = e.id then G e.id ++ c :: cs else G id) ++
            if id ∈ es.map FEntry.id then Go id else []) =
            (fun id => G id ++ if id ∈ (e :: es).map FEntry.id then Go id else []) := by
          funext id
          by_cases hx : id = e.id
          · subst hx
            simp [hn.1, hG]
          · simp [hx]
        rw [← this]
        exact hr2

/-- Merging one traversal into another appends its contributions. -/
theorem cmerge_rep {ω : Hash} {n : Nat} (hM : MergeOk schema frags ω (RepN schema frags n))
    {o s : CTrav} {Ko Ks : Groups} (ho : RepN schema frags (n + 1) o Ko)
    (hs : RepN schema frags (n + 1) s Ks) :
    ∃ c, CTrav.merge ω o s = .ok c ∧ c.typeName = s.typeName ∧ c.lookup = s.lookup ∧
      c.names = s.names ∧ RepN schema frags (n + 1) c
        (fun T id => Ks T id ++ if T ∈ o.names then Ko T id else []) := by
  obtain ⟨otn, olk, oobjs⟩ := o
  obtain ⟨stn, slk, sobjs⟩ := s
  have hperm := ω.isPerm ["ir.rs:368"] (objMergers ω oobjs)
  have hkeys : ((objMergers ω oobjs).map Prod.fst) = oobjs.map Obj.typeName := by
    rw [objMergers_eq, List.map_map]; rfl
  obtain ⟨objs', h1, h2, h3⟩ := foldE_updates
    (fun T u u' => ∀ fs, Obj.mk T fs ∈ oobjs → ∀ G, RepFields schema frags (RepN schema frags n) u G →
      RepFields schema frags (RepN schema frags n) u' (fun id => G id ++ Ko T id))
    (ω.perm ["ir.rs:368"] (objMergers ω oobjs))
    (by rw [(hperm.map _).nodup_iff, hkeys]; exact ho.1) sobjs hs.1
    (by
      intro m hm u hu
      rw [hperm.mem_iff, objMergers_eq] at hm
      obtain ⟨o, hom, rfl⟩ := List.mem_map.1 hm
      obtain ⟨T, fs⟩ := o
      simp only [Obj.typeName_mk, Obj.fields_mk] at hu ⊢
      have hfs := ho.2 T fs hom
      have hp2 := ω.isPerm ["ir.rs:260"] (entryMergers ω fs)
      obtain ⟨l', hl', he'⟩ := perm_map_inv _ hp2 fs (entryMergers_eq ω fs)
      rw [he', foldE_map]
      have hsu := hs.2 T u hu
      obtain ⟨u', hu', _⟩ := foldE_entries hM (Ko T) hfs.good l'
        ((hl'.map _).nodup_iff.2 hfs.nodup) (fun e he => hfs.entry e (hl'.mem_iff.1 he)) u _ hsu
      refine ⟨u', hu', ?_⟩
      intro fs2 hfs2 G hG
      obtain ⟨u2, hu2, hr2⟩ := foldE_entries hM (Ko T) hfs.good l'
        ((hl'.map _).nodup_iff.2 hfs.nodup) (fun e he => hfs.entry e (hl'.mem_iff.1 he)) u G hG
      rw [hu'] at hu2
      injection hu2 with e
      subst e
      have : (fun id => G id ++ if id ∈ l'.map FEntry.id then Ko T id else []) =
          (fun id => G id ++ Ko T id) := by
        funext id
        by_cases hx : id ∈ l'.map FEntry.id
        · rw [if_pos hx]
        · rw [if_neg hx]
          rw [(hl'.map _).mem_iff, hfs.slots] at hx
          simp only [ne_eq, Decidable.not_not] at hx
          rw [hx]
      rw [← this]
      exact hr2)
  refine ⟨.mk stn slk objs', ?_, rfl, rfl, h2, ?_, ?_⟩
  · simp only [CTrav.merge, h1]
  · have : CTrav.names (.mk stn slk objs') = CTrav.names (.mk stn slk sobjs) := h2
    rw [this]; exact hs.1
  · intro T u' hm
    obtain ⟨u, hu, hcase⟩ := h3 T u' hm
    have hsu := hs.2 T u hu
    rcases hcase with ⟨hin, hR⟩ | ⟨hout, rfl⟩
    · rw [(hperm.map _).mem_iff, hkeys] at hin
      obtain ⟨o, hom, he⟩ := List.mem_map.1 hin
      obtain ⟨T', fs⟩ := o
      simp only [Obj.typeName_mk] at he
      subst he
      have : T' ∈ (CTrav.mk otn olk oobjs).names := hin
      simp only [this, if_true]
      exact hR fs hom _ hsu
    · rw [(hperm.map _).mem_iff, hkeys] at hout
      have : T ∉ (CTrav.mk otn olk oobjs).names := hout
      simp only [this, if_false, List.append_nil]
      exact hsu

theorem mergeOk (ω : Hash) (n : Nat) : MergeOk schema frags ω (RepN schema frags n) := by
  induction n with
  | zero =>
    intro id cso css tO tS ho hs
    cases tO with
    | terminal a =>
      cases tS with
      | terminal b =>
        refine ⟨.terminal b, by simp only [Trav.merge], hs.1, ?_⟩
        intro c hc
        rcases List.mem_append.1 hc with h | h
        · exact hs.2 c h
        · exact ho.2 c h
      | complex b => obtain ⟨_, _, _, _, K, e, _⟩ := hs; exact e.elim
    | complex a => obtain ⟨_, _, _, _, K, e, _⟩ := ho; exact e.elim
  | succ n ih =>
    intro id cso css tO tS ho hs
    cases tO with
    | terminal a =>
      cases tS with
      | terminal b =>
        refine ⟨.terminal b, by simp only [Trav.merge], hs.1, ?_⟩
        intro c hc
        rcases List.mem_append.1 hc with h | h
        · exact hs.2 c h
        · exact ho.2 c h
      | complex b =>
        exfalso
        obtain ⟨_, _, hc, _⟩ := hs
        exact ho.1 (by unfold IsComposite; rw [hc]; rfl)
    | complex a =>
      cases tS with
      | terminal b =>
        exfalso
        obtain ⟨_, _, hc, _⟩ := ho
        exact hs.1 (by unfold IsComposite; rw [hc]; rfl)
      | complex b =>
        obtain ⟨o1, o2, o3, o4, Ko, o5, o6⟩ := ho
        obtain ⟨s1, s2, s3, s4, Ks, s5, s6⟩ := hs
        obtain ⟨c, h1, h2, h3, h4, h5⟩ := cmerge_rep ih o5 s5
        refine ⟨.complex c, by simp only [Trav.merge, h1], ?_, by rw [h2, s2], by rw [h3, s3],
          by rw [h4, s4], _, h5, ?_⟩
        · intro x hx
          rcases List.mem_append.1 hx with h | h
          · exact s1 x h
          · exact o1 x h
        · intro T hT
          rw [h4] at hT
          have hT' : T ∈ a.names := by rw [o4, ← s4]; exact hT
          obtain ⟨Ls, hLs, hKs⟩ := s6 T hT
          obtain ⟨Lo, hLo, hKo⟩ := o6 T hT'
          refine ⟨Ls ++ Lo, ?_, ?_⟩
          · obtain ⟨LLs, a1, rfl⟩ := hLs
            obtain ⟨LLo, a2, rfl⟩ := hLo
            refine ⟨LLs ++ LLo, ?_, by simp⟩
            rw [List.map_append]
            exact List.rel_append a1 a2
          · intro id'
            simp only [hT', if_true, hKs, hKo, List.filter_append]

end Qlc
