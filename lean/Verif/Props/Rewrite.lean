import Verif.Spec.Rewrite
import Verif.Props.Same
import Verif.Props.Response
/-
C96: tidying a document leaves the generated file unchanged.
-/
set_option autoImplicit false

namespace Qlc
open Spec

variable {schema : Schema} {frags frags' : Frags}

theorem coll_append {T P : String} {a b : List Selection} {L : List Contribution} :
    Coll schema frags T P (a ++ b) L ↔
      ∃ La Lb, Coll schema frags T P a La ∧ Coll schema frags T P b Lb ∧ L = La ++ Lb := by
  constructor
  · induction a generalizing L with
    | nil => intro h; exact ⟨[], L, .nil, h, rfl⟩
    | cons s rest ih =>
      intro h
      rw [List.cons_append] at h
      cases h with
      | field h1 h2 =>
        obtain ⟨La, Lb, ha, hb, rfl⟩ := ih h2
        exact ⟨_, Lb, .field h1 ha, hb, rfl⟩
      | inlineIn h1 h2 h3 =>
        obtain ⟨La, Lb, ha, hb, rfl⟩ := ih h3
        exact ⟨_, Lb, .inlineIn h1 h2 ha, hb, by rw [List.append_assoc]⟩
      | inlineOut h1 h3 =>
        obtain ⟨La, Lb, ha, hb, rfl⟩ := ih h3
        exact ⟨_, Lb, .inlineOut h1 ha, hb, rfl⟩
      | spreadIn h0 h1 h2 h3 =>
        obtain ⟨La, Lb, ha, hb, rfl⟩ := ih h3
        exact ⟨_, Lb, .spreadIn h0 h1 h2 ha, hb, by rw [List.append_assoc]⟩
      | spreadOut h0 h1 h3 =>
        obtain ⟨La, Lb, ha, hb, rfl⟩ := ih h3
        exact ⟨_, Lb, .spreadOut h0 h1 ha, hb, rfl⟩
  · rintro ⟨La, Lb, ha, hb, rfl⟩
    induction ha with
    | nil => exact hb
    | field h1 _ ih => exact .field h1 (ih hb)
    | inlineIn h1 h2 _ _ ih => rw [List.append_assoc]; exact .inlineIn h1 h2 (ih hb)
    | inlineOut h1 _ ih => exact .inlineOut h1 (ih hb)
    | spreadIn h0 h1 h2 _ _ ih => rw [List.append_assoc]; exact .spreadIn h0 h1 h2 (ih hb)
    | spreadOut h0 h1 _ ih => exact .spreadOut h0 h1 (ih hb)

theorem collMany_flatten {T P : String} : ∀ {sets : List (List Selection)} {L : List Contribution},
    CollMany schema frags T P sets L ↔ Coll schema frags T P sets.flatten L
  | [], L => by
    constructor
    · rintro ⟨Ls, h, rfl⟩; cases h; exact .nil
    · intro h; cases h; exact ⟨[], .nil, rfl⟩
  | s :: sets, L => by
    rw [List.flatten_cons, coll_append]
    constructor
    · rintro ⟨Ls, h, rfl⟩
      cases h with
      | cons h1 h2 => exact ⟨_, _, h1, collMany_flatten.1 ⟨_, h2, rfl⟩, rfl⟩
    · rintro ⟨La, Lb, ha, hb, rfl⟩
      obtain ⟨Ls, h, rfl⟩ := collMany_flatten.2 hb
      exact ⟨La :: Ls, .cons ha h, rfl⟩

/-- The selections collected under one response key for one named type. -/
def slotItems (L : List Contribution) (key Q : String) : List Selection :=
  ((sameSlot L key Q).map Contribution.items).flatten

theorem slotItems_append (L M : List Contribution) (key Q : String) :
    slotItems (L ++ M) key Q = slotItems L key Q ++ slotItems M key Q := by
  simp [slotItems, sameSlot]

/-- What two lists of collected fields have in common after a rewriting. -/
structure SlotKept (schema : Schema) (frags : Frags) (L L' : List Contribution) : Prop where
  slots : ∀ key Q, (∃ c ∈ L, c.key = key ∧ c.field.type.name = Q) ↔ ∃ c ∈ L', c.key = key ∧ c.field.type.name = Q
  first : ∀ key, ((L.filter (fun c => decide (c.key = key))).map Contribution.field).head? =
    ((L'.filter (fun c => decide (c.key = key))).map Contribution.field).head?
  items : ∀ key Q, Rewrites schema frags Q (slotItems L key Q) (slotItems L' key Q)

theorem SlotKept.refl (L : List Contribution) : SlotKept schema frags L L :=
  ⟨fun _ _ => Iff.rfl, fun _ => rfl, fun _ _ => .refl⟩

theorem SlotKept.symm {L L' : List Contribution} (h : SlotKept schema frags L L') : SlotKept schema frags L' L :=
  ⟨fun k Q => (h.slots k Q).symm, fun k => (h.first k).symm, fun k Q => (h.items k Q).symm⟩

theorem SlotKept.trans {L L' L'' : List Contribution} (h : SlotKept schema frags L L') (h' : SlotKept schema frags L' L'') :
    SlotKept schema frags L L'' :=
  ⟨fun k Q => (h.slots k Q).trans (h'.slots k Q), fun k => (h.first k).trans (h'.first k),
    fun k Q => (h.items k Q).trans (h'.items k Q)⟩

theorem head?_append_congr {α : Type} {a a' b b' : List α} (h : a.head? = a'.head?) (h' : b.head? = b'.head?) :
    (a ++ b).head? = (a' ++ b').head? := by
  cases a <;> cases a' <;> simp_all

theorem SlotKept.append {L L' M M' : List Contribution} (h : SlotKept schema frags L L') (h' : SlotKept schema frags M M') :
    SlotKept schema frags (L ++ M) (L' ++ M') := by
  refine ⟨fun k Q => ?_, fun k => ?_, fun k Q => ?_⟩
  · have h1 := h.slots k Q
    have h2 := h'.slots k Q
    simp only [List.mem_append, or_and_right, exists_or]
    rw [h1, h2]
  · rw [List.filter_append, List.filter_append, List.map_append, List.map_append]
    exact head?_append_congr (h.first k) (h'.first k)
  · rw [slotItems_append, slotItems_append]
    exact .append (h.items k Q) (h'.items k Q)

/-- Both selection sets collect, or neither does, and what they collect has that in common. -/
def Simulates (schema : Schema) (frags : Frags) (T P : String) (a b : List Selection) : Prop :=
  (∀ L, Coll schema frags T P a L → ∃ L', Coll schema frags T P b L' ∧ SlotKept schema frags L L') ∧
  (∀ L, Coll schema frags T P b L → ∃ L', Coll schema frags T P a L' ∧ SlotKept schema frags L L')

theorem simulates_of_iff {T P : String} {a b : List Selection}
    (h : ∀ L, Coll schema frags T P a L ↔ Coll schema frags T P b L) : Simulates schema frags T P a b :=
  ⟨fun L hL => ⟨L, (h L).1 hL, .refl L⟩, fun L hL => ⟨L, (h L).2 hL, .refl L⟩⟩

theorem coll_field_singleton {T P : String} {pos : Pos} {al : Option String} {name : String}
    {args : List (String × Value)} {dirs : List Directive} {items : List Selection} {f : SField}
    (hf : fieldOf schema P name = some f) {L : List Contribution} :
    Coll schema frags T P [.field pos al name args dirs items] L ↔ L = [⟨al.getD name, f, items⟩] := by
  constructor
  · intro h
    cases h with
    | field h1 h2 =>
      rw [hf] at h1; injection h1 with h1; subst h1
      cases h2; rfl
  · rintro rfl; exact .field hf .nil

theorem coll_inline_singleton {T P C : String} {pos : Pos} {dirs : List Directive} {items : List Selection}
    {L : List Contribution} : Coll schema frags T P [.inline pos (some C) dirs items] L ↔
      (T ∈ possibleTypes schema C ∧ Coll schema frags T C items L) ∨ (T ∉ possibleTypes schema C ∧ L = []) := by
  constructor
  · intro h
    cases h with
    | inlineIn h1 h2 h3 => cases h3; rw [List.append_nil]; exact .inl ⟨h1, h2⟩
    | inlineOut h1 h3 => cases h3; exact .inr ⟨h1, rfl⟩
  · rintro (⟨h1, h2⟩ | ⟨h1, rfl⟩)
    · have := Coll.inlineIn (P := P) (pos := pos) (dirs := dirs) h1 h2 .nil
      rwa [List.append_nil] at this
    · exact .inlineOut h1 .nil

theorem coll_spread_singleton {T P : String} {pos : Pos} {name : String} {dirs : List Directive}
    {fd : FragmentDef} (hn : AMap.get? frags name = some fd)
    {L : List Contribution} : Coll schema frags T P [.spread pos name dirs] L ↔
      (T ∈ possibleTypes schema fd.typeCond ∧ Coll schema frags T fd.typeCond fd.items L) ∨
        (T ∉ possibleTypes schema fd.typeCond ∧ L = []) := by
  constructor
  · intro h
    cases h with
    | spreadIn h0 h1 h2 h3 =>
      rw [hn] at h0; injection h0 with h0; subst h0
      cases h3; rw [List.append_nil]; exact .inl ⟨h1, h2⟩
    | spreadOut h0 h1 h3 =>
      rw [hn] at h0; injection h0 with h0; subst h0
      cases h3; exact .inr ⟨h1, rfl⟩
  · rintro (⟨h1, h2⟩ | ⟨h1, rfl⟩)
    · have := Coll.spreadIn (P := P) (pos := pos) (dirs := dirs) hn h1 h2 .nil
      rwa [List.append_nil] at this
    · exact .spreadOut hn h1 .nil

theorem kept_swap {L M : List Contribution} (h : ∀ c ∈ L, ∀ c' ∈ M, c.key ≠ c'.key) :
    SlotKept schema frags (L ++ M) (M ++ L) := by
  have hone : ∀ key, L.filter (fun c => decide (c.key = key)) = [] ∨ M.filter (fun c => decide (c.key = key)) = [] := by
    intro key
    by_cases hx : ∃ c ∈ L, c.key = key
    · right
      rw [filter_nil_iff]
      rintro ⟨c', hc', hk'⟩
      obtain ⟨c, hc, hk⟩ := hx
      exact h c hc c' hc' (by rw [hk, hk'])
    · left
      rw [filter_nil_iff]; exact hx
  have hslot : ∀ (N : List Contribution) key Q, N.filter (fun c => decide (c.key = key)) = [] → slotItems N key Q = [] := by
    intro N key Q hN
    have : sameSlot N key Q = [] := by
      unfold sameSlot
      rw [List.filter_eq_nil_iff]
      intro c hc hd
      exact filter_nil_iff.1 hN ⟨c, hc, (of_decide_eq_true hd).1⟩
    simp [slotItems, this]
  refine ⟨fun k Q => ?_, fun k => ?_, fun k Q => ?_⟩
  · simp only [List.mem_append, or_and_right, exists_or]
    exact or_comm
  · rcases hone k with h' | h' <;> simp [List.filter_append, h']
  · rw [slotItems_append, slotItems_append]
    rcases hone k with h' | h' <;> rw [hslot _ _ Q h'] <;> simp only [List.nil_append, List.append_nil] <;> exact .refl

theorem kept_repeated (L : List Contribution) : SlotKept schema frags (L ++ L) L := by
  refine ⟨fun k Q => ?_, fun k => ?_, fun k Q => ?_⟩
  · simp
  · rw [List.filter_append, List.map_append]
    cases (L.filter (fun c => decide (c.key = k))).map Contribution.field <;> simp
  · rw [slotItems_append]; exact .repeated

theorem rewrites_simulates {P : String} {a b : List Selection} (h : Rewrites schema frags P a b) :
    ∀ T ∈ possibleTypes schema P, Simulates schema frags T P a b := by
  induction h with
  | refl => intro T _; exact simulates_of_iff (fun _ => Iff.rfl)
  | symm _ ih => intro T hT; exact (ih T hT).symm
  | trans _ _ ih ih' =>
    intro T hT
    obtain ⟨f1, b1⟩ := ih T hT
    obtain ⟨f2, b2⟩ := ih' T hT
    constructor
    · intro L hL
      obtain ⟨L', hL', k⟩ := f1 L hL
      obtain ⟨L'', hL'', k'⟩ := f2 L' hL'
      exact ⟨L'', hL'', k.trans k'⟩
    · intro L hL
      obtain ⟨L', hL', k⟩ := b2 L hL
      obtain ⟨L'', hL'', k'⟩ := b1 L' hL'
      exact ⟨L'', hL'', k.trans k'⟩
  | append _ _ ih ih' =>
    intro T hT
    obtain ⟨f1, b1⟩ := ih T hT
    obtain ⟨f2, b2⟩ := ih' T hT
    constructor
    · intro L hL
      obtain ⟨La, Lb, ha, hb, rfl⟩ := coll_append.1 hL
      obtain ⟨La', ha', k⟩ := f1 La ha
      obtain ⟨Lb', hb', k'⟩ := f2 Lb hb
      exact ⟨La' ++ Lb', coll_append.2 ⟨_, _, ha', hb', rfl⟩, k.append k'⟩
    · intro L hL
      obtain ⟨La, Lb, ha, hb, rfl⟩ := coll_append.1 hL
      obtain ⟨La', ha', k⟩ := b1 La ha
      obtain ⟨Lb', hb', k'⟩ := b2 Lb hb
      exact ⟨La' ++ Lb', coll_append.2 ⟨_, _, ha', hb', rfl⟩, k.append k'⟩
  | @field P pos pos' al al' name args args' dirs dirs' items items' f hf hal hr ih =>
    intro T _
    have key : ∀ (k : String) (x y : List Selection), Rewrites schema frags f.type.name x y →
        SlotKept schema frags [⟨k, f, x⟩] [⟨k, f, y⟩] := by
      intro k x y hxy
      refine ⟨fun k' Q => by simp, fun k' => ?_, fun k' Q => ?_⟩
      · by_cases hk : k = k' <;> simp [hk]
      · unfold slotItems sameSlot
        by_cases hk : k = k' ∧ f.type.name = Q
        · obtain ⟨rfl, rfl⟩ := hk
          simpa using hxy
        · simp only [List.filter_cons, hk, decide_false, List.filter_nil, Bool.false_eq_true, if_false]
          exact .refl
    constructor
    · intro L hL
      rw [coll_field_singleton hf] at hL
      subst hL
      exact ⟨_, (coll_field_singleton hf).2 rfl, by rw [← hal]; exact key _ _ _ hr⟩
    · intro L hL
      rw [coll_field_singleton hf] at hL
      subst hL
      exact ⟨_, (coll_field_singleton hf).2 rfl, by rw [← hal]; exact key _ _ _ hr.symm⟩
  | inline _ ih =>
    intro T _
    constructor
    · intro L hL
      rcases coll_inline_singleton.1 hL with ⟨h1, h2⟩ | ⟨h1, rfl⟩
      · obtain ⟨L', hL', k⟩ := (ih T h1).1 L h2
        exact ⟨L', coll_inline_singleton.2 (.inl ⟨h1, hL'⟩), k⟩
      · exact ⟨[], coll_inline_singleton.2 (.inr ⟨h1, rfl⟩), .refl _⟩
    · intro L hL
      rcases coll_inline_singleton.1 hL with ⟨h1, h2⟩ | ⟨h1, rfl⟩
      · obtain ⟨L', hL', k⟩ := (ih T h1).2 L h2
        exact ⟨L', coll_inline_singleton.2 (.inl ⟨h1, hL'⟩), k⟩
      · exact ⟨[], coll_inline_singleton.2 (.inr ⟨h1, rfl⟩), .refl _⟩
  | spread hn =>
    intro T _
    apply simulates_of_iff
    intro L
    rw [coll_spread_singleton hn, coll_inline_singleton]
  | unwrap =>
    intro T hT
    apply simulates_of_iff
    intro L
    rw [coll_inline_singleton]
    simp [hT]
  | never hne =>
    intro T hT
    apply simulates_of_iff
    intro L
    rw [coll_inline_singleton]
    simp only [hne T hT, false_and, not_false_eq_true, true_and, false_or]
    constructor
    · rintro rfl; exact .nil
    · intro h; cases h; rfl
  | swap hno =>
    intro T hT
    constructor
    · intro L hL
      obtain ⟨La, Lb, ha, hb, rfl⟩ := coll_append.1 hL
      exact ⟨Lb ++ La, coll_append.2 ⟨_, _, hb, ha, rfl⟩, kept_swap (hno T hT _ _ ha hb)⟩
    · intro L hL
      obtain ⟨Lb, La, hb, ha, rfl⟩ := coll_append.1 hL
      exact ⟨La ++ Lb, coll_append.2 ⟨_, _, ha, hb, rfl⟩, (kept_swap (hno T hT _ _ ha hb)).symm⟩
  | repeated =>
    intro T _
    constructor
    · intro L hL
      obtain ⟨La, Lb, ha, hb, rfl⟩ := coll_append.1 hL
      have := coll_functional ha _ hb
      subst this
      exact ⟨La, ha, kept_repeated La⟩
    · intro L hL
      exact ⟨L ++ L, coll_append.2 ⟨_, _, hL, hL, rfl⟩, (kept_repeated L).symm⟩
  | @mergeFields P pos pos' pos'' al al' al'' name args args' args'' dirs dirs' dirs'' items items' f hf h1 h2 =>
    intro T _
    have hc : ∀ L, Coll schema frags T P [.field pos al name args dirs items, .field pos' al' name args' dirs' items'] L ↔
        L = [⟨al.getD name, f, items⟩, ⟨al.getD name, f, items'⟩] := by
      intro L
      have : [Selection.field pos al name args dirs items, .field pos' al' name args' dirs' items'] =
        [.field pos al name args dirs items] ++ [.field pos' al' name args' dirs' items'] := rfl
      rw [this, coll_append]
      simp only [coll_field_singleton hf]
      rw [← h1]
      constructor
      · rintro ⟨_, _, rfl, rfl, rfl⟩; rfl
      · rintro rfl; exact ⟨_, _, rfl, rfl, rfl⟩
    have hk : SlotKept schema frags [⟨al.getD name, f, items⟩, ⟨al.getD name, f, items'⟩]
        [⟨al.getD name, f, items ++ items'⟩] := by
      refine ⟨fun k Q => by simp, fun k => ?_, fun k Q => ?_⟩
      · by_cases hk : al.getD name = k <;> simp [hk]
      · have : slotItems [⟨al.getD name, f, items⟩, ⟨al.getD name, f, items'⟩] k Q =
            slotItems [⟨al.getD name, f, items ++ items'⟩] k Q := by
          unfold slotItems sameSlot
          by_cases hk : al.getD name = k ∧ f.type.name = Q <;> simp [hk]
        rw [this]; exact .refl
    constructor
    · intro L hL
      rw [hc] at hL; subst hL
      exact ⟨_, (coll_field_singleton hf).2 rfl, by rw [← h2]; exact hk⟩
    · intro L hL
      rw [coll_field_singleton hf] at hL; subst hL
      exact ⟨_, (hc _).2 rfl, by rw [← h2]; exact hk.symm⟩
  | @mergeInline P C pos pos' pos'' dirs dirs' dirs'' items items' =>
    intro T _
    apply simulates_of_iff
    intro L
    have : [Selection.inline pos (some C) dirs items, .inline pos' (some C) dirs' items'] =
      [.inline pos (some C) dirs items] ++ [.inline pos' (some C) dirs' items'] := rfl
    rw [this, coll_append, coll_inline_singleton]
    simp only [coll_inline_singleton]
    by_cases hT : T ∈ possibleTypes schema C
    · simp only [hT, true_and, not_true_eq_false, false_and, or_false]
      rw [coll_append]
    · simp only [hT, false_and, not_false_eq_true, true_and, false_or]
      constructor
      · rintro ⟨_, _, rfl, rfl, rfl⟩; rfl
      · rintro rfl; exact ⟨_, _, rfl, rfl, rfl⟩

/-! ### Positions -/

theorem merged_slot {L : List Contribution} {key Q : String}
    (h : ∀ c ∈ L, c.key = key → c.field.type.name = Q) : (merged L key).flatten = slotItems L key Q := by
  unfold merged slotItems sameSlot
  congr 2
  apply List.filter_congr
  intro c hc
  by_cases hk : c.key = key
  · simp [hk, h c hc hk]
  · simp [hk]

theorem coll_mono (h : ∀ n fd, AMap.get? frags' n = some fd → AMap.get? frags n = some fd) {T P : String}
    {items : List Selection} {L : List Contribution} (hc : Coll schema frags' T P items L) :
    Coll schema frags T P items L := by
  induction hc with
  | nil => exact .nil
  | field h1 _ ih => exact .field h1 ih
  | inlineIn h1 _ _ ih ih' => exact .inlineIn h1 ih ih'
  | inlineOut h1 _ ih => exact .inlineOut h1 ih
  | spreadIn h0 h1 _ _ ih ih' => exact .spreadIn (h _ _ h0) h1 ih ih'
  | spreadOut h0 h1 _ ih => exact .spreadOut (h _ _ h0) h1 ih

theorem collMany_mono (h : ∀ n fd, AMap.get? frags' n = some fd → AMap.get? frags n = some fd) {T P : String}
    {sets : List (List Selection)} {L : List Contribution} (hc : CollMany schema frags' T P sets L) :
    CollMany schema frags T P sets L :=
  collMany_flatten.2 (coll_mono h (collMany_flatten.1 hc))

theorem position_mono (h : ∀ n fd, AMap.get? frags' n = some fd → AMap.get? frags n = some fd) {P P' : String}
    {sets sets' : List (List Selection)} (hp : Position schema frags' P sets P' sets') :
    Position schema frags P sets P' sets' := by
  induction hp with
  | refl => exact .refl
  | step h1 h2 h3 _ ih => exact .step h1 (collMany_mono h h2) h3 ih

theorem oneTypePerKey_step {P : String} {sets : List (List Selection)} (hone : OneTypePerKey schema frags P sets)
    {T : String} {L : List Contribution} {c : Contribution} (hT : T ∈ possibleTypes schema P)
    (hL : CollMany schema frags T P sets L) (hc : c ∈ L) :
    OneTypePerKey schema frags c.field.type.name (merged L c.key) :=
  fun P' sets' hp => hone P' sets' (.step hT hL hc hp)

/-- After a rewriting the same data is asked for. -/
theorem rewrites_sameTo (hsub : ∀ n fd, AMap.get? frags' n = some fd → AMap.get? frags n = some fd) (n : Nat) :
    ∀ (P : String) (sets sets' : List (List Selection)), OneTypePerKey schema frags P sets →
    Rewrites schema frags P sets.flatten sets'.flatten → SameTo schema schema frags frags' n P sets P sets' := by
  induction n with
  | zero => intro P sets sets' _ _; trivial
  | succ n ih =>
    intro P sets sets' hone hr
    refine ⟨fun _ => Iff.rfl, ?_⟩
    intro T hT L L' hL hL'
    have hL'' := collMany_mono hsub hL'
    obtain ⟨M, hM, hk⟩ := (rewrites_simulates hr T hT).1 L (collMany_flatten.1 hL)
    have e := coll_functional hM _ (collMany_flatten.1 hL'')
    subst e
    have hone0 := hone P sets .refl T hT L hL
    intro key
    cases hf : L.filter (fun c => decide (c.key = key)) with
    | nil =>
      have := hk.first key
      rw [hf] at this
      cases hf' : M.filter (fun c => decide (c.key = key)) with
      | nil => trivial
      | cons a l => rw [hf'] at this; simp at this
    | cons c rest =>
      have := hk.first key
      rw [hf] at this
      cases hf' : M.filter (fun c => decide (c.key = key)) with
      | nil => rw [hf'] at this; simp at this
      | cons c' rest' =>
        rw [hf'] at this
        simp only [List.map_cons, List.head?_cons, Option.some.injEq] at this
        simp only
        obtain ⟨hc, hck⟩ := mem_of_filter hf
        have hall : ∀ x ∈ L, x.key = key → x.field.type.name = c.field.type.name :=
          fun x hx hxk => hone0 x hx c hc (by rw [hxk, hck])
        have hall' : ∀ x ∈ M, x.key = key → x.field.type.name = c.field.type.name := by
          intro x hx hxk
          obtain ⟨y, hy, hyk, hyn⟩ := (hk.slots key x.field.type.name).2 ⟨x, hx, hxk, rfl⟩
          rw [← hyn]; exact hall y hy hyk
        rw [← this]
        refine ⟨rfl, rfl, rfl, rfl, ?_⟩
        cases hcx : c.field.type.definition.isComplex with
        | false => exact .inr ⟨rfl, rfl, fun _ => rfl⟩
        | true =>
          refine .inl ⟨rfl, rfl, ?_⟩
          apply ih
          · rw [← hck]; exact oneTypePerKey_step hone hT hL hc
          · rw [merged_slot hall, merged_slot hall']
            exact hk.items key _

/-- A rewriting keeps one named type per response key. -/
theorem rewrites_oneType {P P' : String} {sets' sets₁ : List (List Selection)}
    (hp : Position schema frags P sets' P' sets₁) : ∀ sets, OneTypePerKey schema frags P sets →
    Rewrites schema frags P sets.flatten sets'.flatten →
    ∃ sets₀, OneTypePerKey schema frags P' sets₀ ∧ Rewrites schema frags P' sets₀.flatten sets₁.flatten := by
  induction hp with
  | refl => intro sets h1 h2; exact ⟨sets, h1, h2⟩
  | @step P sets' P' sets₁ T L c hT hL hc _ ih =>
    intro sets hone hr
    obtain ⟨M, hM, hk⟩ := (rewrites_simulates hr T hT).2 L (collMany_flatten.1 hL)
    have hM' := collMany_flatten.2 hM
    have hone0 := hone P sets .refl T hT M hM'
    obtain ⟨y, hy, hyk, hyn⟩ := (hk.slots c.key c.field.type.name).1 ⟨c, hc, rfl, rfl⟩
    have hall : ∀ x ∈ M, x.key = c.key → x.field.type.name = c.field.type.name :=
      fun x hx hxk => by rw [← hyn]; exact hone0 x hx y hy (by rw [hxk, hyk])
    have hall' : ∀ x ∈ L, x.key = c.key → x.field.type.name = c.field.type.name := by
      intro x hx hxk
      obtain ⟨z, hz, hzk, hzn⟩ := (hk.slots c.key x.field.type.name).1 ⟨x, hx, hxk, rfl⟩
      rw [← hzn]; exact hall z hz hzk
    apply ih (merged M c.key)
    · rw [← hyk, ← hyn]; exact oneTypePerKey_step hone hT hM' hy
    · rw [merged_slot hall, merged_slot hall']
      exact (hk.items _ _).symm

theorem oneTypePerKey_rewrites {P : String} {sets sets' : List (List Selection)}
    (hone : OneTypePerKey schema frags P sets) (hr : Rewrites schema frags P sets.flatten sets'.flatten) :
    OneTypePerKey schema frags P sets' := by
  intro P' sets₁ hp T hT L hL c hc c' hc' hk
  obtain ⟨sets₀, h1, h2⟩ := rewrites_oneType hp sets hone hr
  obtain ⟨M, hM, hkept⟩ := (rewrites_simulates h2 T hT).2 L (collMany_flatten.1 hL)
  have hone0 := h1 P' sets₀ .refl T hT M (collMany_flatten.2 hM)
  obtain ⟨y, hy, hyk, hyn⟩ := (hkept.slots c.key c.field.type.name).1 ⟨c, hc, rfl, rfl⟩
  obtain ⟨z, hz, hzk, hzn⟩ := (hkept.slots c'.key c'.field.type.name).1 ⟨c', hc', rfl, rfl⟩
  rw [← hyn, ← hzn]
  exact hone0 y hy z hz (by rw [hyk, hzk, hk])

/-- **C96.** Tidying the selections of a definition — reordering selections of different response keys, writing a
fragment out or extracting one, removing repetitions and fragments that never apply, merging — leaves the
generated file unchanged.  Imports that are no longer needed may be removed. -/
theorem C96_tidying_keeps_text (ω ω' : Hash) (fuel fuel' : Nat) (showDep showDep' : Bool) (cfg : TsConfig)
    (hcon : Consistent schema) (hfr : FragsValid schema frags) (hfr' : FragsValid schema frags')
    (hsub : ∀ n fd, AMap.get? frags' n = some fd → AMap.get? frags n = some fd)
    (d d' : Definition) (op op' : Operation) (ws ws' : List Warning) (P : String) (hP : rootType d = some P)
    (hP' : rootType d' = some P)
    (h : Operation.compile ω fuel ⟨schema, showDep, frags⟩ d = some (.ok op, ws))
    (h' : Operation.compile ω' fuel' ⟨schema, showDep', frags'⟩ d' = some (.ok op', ws'))
    (hone : OneTypePerKey schema frags P [itemsOf d]) (hhead : SameHead d d')
    (hv : ((varsOf d).map VarDef.name).Nodup)
    (hr : Rewrites schema frags P (itemsOf d) (itemsOf d')) :
    compileIr ω op cfg schema = compileIr ω' op' cfg schema := by
  have hr' : Rewrites schema frags P [itemsOf d].flatten [itemsOf d'].flatten := by simpa using hr
  have hone' := oneTypePerKey_rewrites hone hr'
  exact (C95_same_data_same_text ω ω' fuel fuel' showDep showDep' cfg hcon hcon hfr hfr' d d' op op' ws ws' P P hP hP'
    h h' hone (fun P' s hp T hT L hL => hone' P' s (position_mono hsub hp) T hT L (collMany_mono hsub hL)) hhead hv
    (fun _ _ _ => Iff.rfl) (fun n => rewrites_sameTo hsub n P _ _ hone hr')).2

/-! ### A case -/

theorem resp_field {P name Q : String} (h : (fieldOf Demo.respSchema P name).map (fun f => f.type.name) = some Q) :
    ∃ f, fieldOf Demo.respSchema P name = some f ∧ f.type.name = Q := by
  cases hf : fieldOf Demo.respSchema P name with
  | none => rw [hf] at h; simp at h
  | some f => rw [hf] at h; simp only [Option.map_some, Option.some.injEq] at h; exact ⟨f, rfl, h⟩

theorem tidy_rewrites_in {frags : Frags} (hF : AMap.get? frags "F" = some Demo.fragF) :
    Rewrites Demo.respSchema frags "Query" (itemsOf Demo.query) (itemsOf Demo.tidyQuery) := by
  obtain ⟨f, hf, hn⟩ := resp_field (P := "Query") (name := "node") (Q := "Node") (by decide +kernel)
  obtain ⟨g, hg, _⟩ := resp_field (P := "Query") (name := "viewer") (Q := "User") (by decide +kernel)
  have inner : Rewrites Demo.respSchema frags "Node"
      [Demo.leaf 4 5 "__typename", Demo.leaf 5 5 "id", .spread ⟨6, 8⟩ "F" [],
        .inline ⟨7, 9⟩ (some "User") [] [Demo.leaf 7 19 "role", Demo.leaf 7 24 "old"]]
      [Demo.leaf 4 5 "__typename", Demo.leaf 5 5 "id", Demo.leaf 5 5 "id", Demo.leaf 1 20 "name",
        .inline ⟨7, 9⟩ (some "User") [] [Demo.leaf 7 19 "role"],
        .inline ⟨8, 5⟩ (some "User") [] [Demo.leaf 7 24 "old"]] := by
    refine .append (a := [Demo.leaf 4 5 "__typename"]) (a' := [Demo.leaf 4 5 "__typename"]) .refl ?_
    refine .append (a := [Demo.leaf 5 5 "id"]) (a' := [Demo.leaf 5 5 "id"] ++ [Demo.leaf 5 5 "id"])
      (.symm .repeated) ?_
    refine .append (a := [.spread ⟨6, 8⟩ "F" []]) (a' := [Demo.leaf 1 20 "name"]) ?_ ?_
    · exact .trans (.spread (pos' := ⟨6, 8⟩) (dirs' := []) (fd := Demo.fragF) hF) .unwrap
    · exact .symm (.mergeInline (items := [Demo.leaf 7 19 "role"]) (items' := [Demo.leaf 7 24 "old"]))
  refine .trans (.swap (a := [_]) (b := [_]) ?_) (.append (a := [_]) (a' := [_]) (.field hg rfl .refl)
    (.field hf rfl (by rw [hn]; exact inner)))
  intro T _ L L' hL hL' c hc c' hc'
  rw [coll_field_singleton hf] at hL
  rw [coll_field_singleton hg] at hL'
  subst hL hL'
  rw [List.mem_singleton] at hc hc'
  subst hc hc'
  show "node" ≠ "me"
  decide

theorem tidy_rewrites : Rewrites Demo.respSchema Demo.ctx.fragments "Query" (itemsOf Demo.query)
    (itemsOf Demo.tidyQuery) := tidy_rewrites_in rfl

theorem tidy_checks : respChecks Demo.tsCfg Demo.respSchema [] Demo.tidyQuery = true := by
  decide +kernel

/-- The demo query and its tidied form meet the hypotheses. -/
example : ∃ op op' ws ws', Operation.compile .inOrder 9 ⟨Demo.respSchema, true, Demo.ctx.fragments⟩ Demo.query =
      some (.ok op, ws) ∧
    Operation.compile .inOrder 9 ⟨Demo.respSchema, true, []⟩ Demo.tidyQuery = some (.ok op', ws') ∧
    compileIr .inOrder op Demo.tsCfg Demo.respSchema = compileIr .inOrder op' Demo.tsCfg Demo.respSchema ∧
    (compileIr .inOrder op Demo.tsCfg Demo.respSchema).toOption.isSome = true := by
  obtain ⟨op, ws, c, h, hc, hd, _⟩ := respChecks_sound resp_checks
  obtain ⟨op', ws', _, h', _⟩ := respChecks_sound tidy_checks
  have hcon := loaded_consistent resp_valid resp_loads
  refine ⟨op, op', ws, ws', h, h', ?_, by rw [hc]; rfl⟩
  exact C96_tidying_keeps_text .inOrder .inOrder 9 9 true true Demo.tsCfg hcon resp_frags_valid
    (fun _ _ h => by simp [AMap.get?] at h) (fun _ _ h => by simp [AMap.get?] at h) Demo.query Demo.tidyQuery op op' ws
    ws' "Query" rfl rfl h h'
    ((C21_listed_once_iff .inOrder 9 true hcon resp_frags_valid Demo.query op ws "Query" rfl h).1 hd)
    (.operation rfl) (by decide) tidy_rewrites

/-- The same two documents meet the hypotheses of C95 that concern the data asked for. -/
example : ∃ op ws, Operation.compile .inOrder 9 ⟨Demo.respSchema, true, Demo.ctx.fragments⟩ Demo.query = some (.ok op, ws) ∧
    OneTypePerKey Demo.respSchema Demo.ctx.fragments "Query" [itemsOf Demo.query] ∧
    OneTypePerKey Demo.respSchema Demo.ctx.fragments "Query" [itemsOf Demo.tidyQuery] ∧
    AskSame Demo.respSchema Demo.respSchema Demo.ctx.fragments Demo.ctx.fragments "Query" [itemsOf Demo.query]
      "Query" [itemsOf Demo.tidyQuery] := by
  obtain ⟨op, ws, c, h, hc, hd, _⟩ := respChecks_sound resp_checks
  have hcon := loaded_consistent resp_valid resp_loads
  have hone := (C21_listed_once_iff .inOrder 9 true hcon resp_frags_valid Demo.query op ws "Query" rfl h).1 hd
  have hr : Rewrites Demo.respSchema Demo.ctx.fragments "Query" [itemsOf Demo.query].flatten
      [itemsOf Demo.tidyQuery].flatten := by simpa using tidy_rewrites
  exact ⟨op, ws, h, hone, oneTypePerKey_rewrites hone hr,
    fun n => rewrites_sameTo (fun _ _ h => h) n "Query" _ _ hone hr⟩

/-! ### The proviso on changing places -/

/-- Introspection data in which an implementation documents an interface field differently. -/
def docsJson : JSchema := ⟨[
  ⟨"OBJECT", "Query", none, none, none, some [Demo.fld "node" (Demo.t "INTERFACE" "Node")], none⟩,
  ⟨"INTERFACE", "Node", none, some ["User"], none, some [⟨"id", some "any id", Demo.t "SCALAR" "ID", none⟩], none⟩,
  ⟨"OBJECT", "User", none, none, none, some [⟨"id", some "user id", Demo.t "SCALAR" "ID", none⟩], none⟩,
  ⟨"SCALAR", "ID", none, none, none, none, none⟩]⟩

/-- The schema loaded from it. -/
def docsSchema : Schema := match Schema.ofJson docsJson with | .ok s => s | .error _ => []

/-- `query Q { node { … } }`. -/
def docsQuery (items : List Selection) : Definition := .operation .query ⟨1, 1⟩ (some "Q") [] []
  [.field ⟨2, 1⟩ none "node" [] [] items]

/-- **C96, the proviso is needed.** Selections with a response key in common may not change places: the first one
provides the documentation. -/
theorem C96_order_of_one_key_matters : ∃ a b t t', ValidDoc docsJson ∧
    Demo.textOf Demo.tsCfg docsSchema [] (docsQuery (a ++ b)) = some t ∧
    Demo.textOf Demo.tsCfg docsSchema [] (docsQuery (b ++ a)) = some t' ∧ t ≠ t' := by
  let a : List Selection := [Demo.leaf 3 1 "id"]
  let b : List Selection := [.inline ⟨4, 1⟩ (some "User") [] [Demo.leaf 4 12 "id"]]
  have h1 : (Demo.textOf Demo.tsCfg docsSchema [] (docsQuery (a ++ b))).isSome = true := by decide +kernel
  have h2 : (Demo.textOf Demo.tsCfg docsSchema [] (docsQuery (b ++ a))).isSome = true := by decide +kernel
  have h3 : Demo.textOf Demo.tsCfg docsSchema [] (docsQuery (a ++ b)) ≠
      Demo.textOf Demo.tsCfg docsSchema [] (docsQuery (b ++ a)) := by decide +kernel
  obtain ⟨t, ht⟩ := Option.isSome_iff_exists.1 h1
  obtain ⟨t', ht'⟩ := Option.isSome_iff_exists.1 h2
  exact ⟨a, b, t, t', validDocB_sound (by decide +kernel), ht, ht', fun e => h3 (by rw [ht, ht', e])⟩

end Qlc
