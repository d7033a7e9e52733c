import Verif.Spec.Compose
import Verif.Lemmas.Exact
import Verif.Lemmas.RespCheck
/-
Lemmas for C119: parts of answers.
-/
set_option autoImplicit false

namespace Qlc
open Spec

variable {doc : JSchema} {frags : Frags} {applies : List Directive → Prop} {scalars : String → JVal → Prop}

/-! ### Collecting -/

theorem collect_det {T : String} {items : List Selection} {L : List Wanted}
    (h : Collect doc frags applies T items L) :
    ∀ {L' : List Wanted}, Collect doc frags applies T items L' → L = L' := by
  induction h with
  | nil => intro L' h'; cases h'; rfl
  | leftOutField hd _ ih =>
    intro L' h'
    cases h' with
    | leftOutField _ h => exact ih h
    | field h _ => exact absurd h hd
  | leftOutInline hd _ ih =>
    intro L' h'
    cases h' with
    | leftOutInline _ h => exact ih h
    | inline h => exact absurd h hd
    | otherInline h => exact absurd h hd
  | leftOutSpread hd _ ih =>
    intro L' h'
    cases h' with
    | leftOutSpread _ h => exact ih h
    | spread h => exact absurd h hd
    | otherSpread h => exact absurd h hd
  | field hd _ ih =>
    intro L' h'
    cases h' with
    | leftOutField h => exact absurd hd h
    | field _ h => rw [ih h]
  | inline hd hc _ _ ih1 ih2 =>
    intro L' h'
    cases h' with
    | leftOutInline h => exact absurd hd h
    | inline _ _ h1 h2 => rw [ih1 h1, ih2 h2]
    | otherInline _ h => exact absurd (hc _ rfl) h
  | otherInline hd hc _ ih =>
    intro L' h'
    cases h' with
    | leftOutInline h => exact absurd hd h
    | inline _ h => exact absurd (h _ rfl) hc
    | otherInline _ _ h => exact ih h
  | spread hd hf hc _ _ ih1 ih2 =>
    intro L' h'
    cases h' with
    | leftOutSpread h => exact absurd hd h
    | spread _ hf' _ h1 h2 =>
      rw [hf] at hf'
      cases hf'
      rw [ih1 h1, ih2 h2]
    | otherSpread _ hf' h =>
      rw [hf] at hf'
      cases hf'
      exact absurd hc h
  | otherSpread hd hf hc _ ih =>
    intro L' h'
    cases h' with
    | leftOutSpread h => exact absurd hd h
    | spread _ hf' h =>
      rw [hf] at hf'
      cases hf'
      exact absurd h hc
    | otherSpread _ _ _ h => exact ih h

theorem collectMany_part {T : String} {sets : List (List Selection)} {L : List Wanted}
    (h : CollectMany doc frags applies T sets L) {s : List Selection} (hs : s ∈ sets) :
    ∃ Ls, Collect doc frags applies T s Ls ∧ ∀ w ∈ Ls, w ∈ L := by
  obtain ⟨Ls, h, rfl⟩ := h
  induction h with
  | nil => simp at hs
  | cons h1 _ ih =>
    rcases List.mem_cons.1 hs with rfl | hs
    · exact ⟨_, h1, fun w hw => by simp [hw]⟩
    · obtain ⟨L', hL', h⟩ := ih hs
      refine ⟨L', hL', fun w hw => ?_⟩
      rw [List.flatten_cons]
      exact List.mem_append_right _ (h w hw)

/-- Some of the sets collect some of the fields. -/
theorem collectMany_sub {T : String} {sets sets' : List (List Selection)} {L' : List Wanted}
    (h : CollectMany doc frags applies T sets' L') (hsub : ∀ s ∈ sets, s ∈ sets') :
    ∃ L, CollectMany doc frags applies T sets L ∧ ∀ w ∈ L, w ∈ L' := by
  induction sets with
  | nil => exact ⟨[], ⟨[], .nil, rfl⟩, by simp⟩
  | cons s sets ih =>
    obtain ⟨L, ⟨Ls, h1, rfl⟩, h2⟩ := ih (fun s hs => hsub s (by simp [hs]))
    obtain ⟨Lh, h3, h4⟩ := collectMany_part h (hsub s (by simp))
    refine ⟨_, ⟨Lh :: Ls, .cons h3 h1, rfl⟩, ?_⟩
    intro w hw
    rw [List.flatten_cons] at hw
    rcases List.mem_append.1 hw with hw | hw
    · exact h4 w hw
    · exact h2 w hw

/-- The fields that a selection of the set gives on its own. -/
theorem collect_spread {T : String} {items : List Selection} {L : List Wanted}
    (h : Collect doc frags applies T items L) {pos : Pos} {name : String} {dirs : List Directive}
    (hm : .spread pos name dirs ∈ items) (hd : applies dirs) {fd : FragmentDef}
    (hf : AMap.get? frags name = some fd) (hT : T ∈ objectTypes doc fd.typeCond) :
    ∃ L₁, Collect doc frags applies T fd.items L₁ ∧ ∀ w ∈ L₁, w ∈ L := by
  induction h with
  | nil => simp at hm
  | leftOutField _ _ ih | leftOutInline _ _ ih =>
    exact ih (by simpa using hm)
  | otherInline _ _ _ ih => exact ih (by simpa using hm)
  | field _ _ ih =>
    obtain ⟨L₁, h1, h2⟩ := ih (by simpa using hm)
    exact ⟨L₁, h1, fun w hw => by simp [h2 w hw]⟩
  | inline _ _ _ _ _ ih =>
    obtain ⟨L₁, h1, h2⟩ := ih (by simpa using hm)
    exact ⟨L₁, h1, fun w hw => by simp [h2 w hw]⟩
  | leftOutSpread hd' _ ih =>
    rcases List.mem_cons.1 hm with e | hm
    · cases e
      exact absurd hd hd'
    · exact ih hm
  | spread _ hf' _ h1 _ _ ih =>
    rcases List.mem_cons.1 hm with e | hm
    · cases e
      rw [hf] at hf'
      cases hf'
      exact ⟨_, h1, fun w hw => by simp [hw]⟩
    · obtain ⟨L₁, h1, h2⟩ := ih hm
      exact ⟨L₁, h1, fun w hw => by simp [h2 w hw]⟩
  | otherSpread _ hf' hT' _ ih =>
    rcases List.mem_cons.1 hm with e | hm
    · cases e
      rw [hf] at hf'
      cases hf'
      exact absurd hT hT'
    · exact ih hm

theorem collect_inline {T : String} {items : List Selection} {L : List Wanted}
    (h : Collect doc frags applies T items L) {pos : Pos} {C : String} {dirs : List Directive}
    {sub : List Selection} (hm : .inline pos (some C) dirs sub ∈ items) (hd : applies dirs)
    (hT : T ∈ objectTypes doc C) :
    ∃ L₁, Collect doc frags applies T sub L₁ ∧ ∀ w ∈ L₁, w ∈ L := by
  induction h with
  | nil => simp at hm
  | leftOutField _ _ ih | leftOutSpread _ _ ih =>
    exact ih (by simpa using hm)
  | otherSpread _ _ _ _ ih => exact ih (by simpa using hm)
  | field _ _ ih =>
    obtain ⟨L₁, h1, h2⟩ := ih (by simpa using hm)
    exact ⟨L₁, h1, fun w hw => by simp [h2 w hw]⟩
  | spread _ _ _ _ _ _ ih =>
    obtain ⟨L₁, h1, h2⟩ := ih (by simpa using hm)
    exact ⟨L₁, h1, fun w hw => by simp [h2 w hw]⟩
  | leftOutInline hd' _ ih =>
    rcases List.mem_cons.1 hm with e | hm
    · cases e
      exact absurd hd hd'
    · exact ih hm
  | inline _ _ h1 _ _ ih =>
    rcases List.mem_cons.1 hm with e | hm
    · cases e
      exact ⟨_, h1, fun w hw => by simp [hw]⟩
    · obtain ⟨L₁, h1, h2⟩ := ih hm
      exact ⟨L₁, h1, fun w hw => by simp [h2 w hw]⟩
  | otherInline _ hT' _ ih =>
    rcases List.mem_cons.1 hm with e | hm
    · cases e
      exact absurd hT hT'
    · exact ih hm

theorem collect_field {T : String} {items : List Selection} {L : List Wanted}
    (h : Collect doc frags applies T items L) {pos : Pos} {al : Option String} {name : String}
    {args : List (String × Value)} {dirs : List Directive} {sub : List Selection}
    (hm : .field pos al name args dirs sub ∈ items) (hd : applies dirs) :
    (⟨al.getD name, name, sub⟩ : Wanted) ∈ L := by
  induction h with
  | nil => simp at hm
  | leftOutInline _ _ ih | leftOutSpread _ _ ih => exact ih (by simpa using hm)
  | otherInline _ _ _ ih => exact ih (by simpa using hm)
  | otherSpread _ _ _ _ ih => exact ih (by simpa using hm)
  | inline _ _ _ _ _ ih => exact List.mem_append_right _ (ih (by simpa using hm))
  | spread _ _ _ _ _ _ ih => exact List.mem_append_right _ (ih (by simpa using hm))
  | leftOutField hd' _ ih =>
    rcases List.mem_cons.1 hm with e | hm
    · cases e
      exact absurd hd hd'
    · exact ih hm
  | field _ _ ih =>
    rcases List.mem_cons.1 hm with e | hm
    · cases e
      simp
    · exact List.mem_cons_of_mem _ (ih hm)

/-! ### Values of a type -/

/-- What is admitted down to every depth is admitted down to all depths. -/
theorem admits_all {B : Nat → JVal → Prop} : ∀ (t : VarTy) (x : JVal), (∀ n, Admits (B n) t x) →
    Admits (fun y => ∀ n, B n y) t x
  | .named _, x, h => by
    by_cases hx : x = .null
    · exact .inl hx
    · exact .inr (fun n => (h n).resolve_left hx)
  | .list t, x, h => by
    rcases h 0 with h0 | ⟨vs, rfl, _⟩
    · exact .inl h0
    · refine .inr ⟨vs, rfl, fun y hy => admits_all t y (fun n => ?_)⟩
      rcases h n with h1 | ⟨vs', e, h1⟩
      · exact JVal.noConfusion h1
      · cases e
        exact h1 y hy
  | .nonNull t, x, h => ⟨(h 0).1, admits_all t x (fun n => (h n).2)⟩

theorem admits_each {B : Nat → JVal → Prop} (t : VarTy) (x : JVal) (h : Admits (fun y => ∀ n, B n y) t x)
    (n : Nat) : Admits (B n) t x :=
  admits_mono (fun _ hv => hv n) t x h

/-- Parts of the objects in a value make a part of the value. -/
theorem admits_part {B B' : JVal → Prop} (hobj : ∀ y, B' y → y ≠ .null) : ∀ (t : VarTy) (x : JVal),
    Admits B t x → (∀ y, sizeOf y ≤ sizeOf x → B y → ∃ y', PartOf y' y ∧ B' y') →
    ∃ x', PartOf x' x ∧ Admits B' t x' ∧ (x ≠ .null → x' ≠ .null)
  | .named _, x, h, hB => by
    rcases h with rfl | h
    · exact ⟨_, .same _, .inl rfl, id⟩
    · obtain ⟨x', h1, h2⟩ := hB x (Nat.le_refl _) h
      exact ⟨x', h1, .inr h2, fun _ => hobj _ h2⟩
  | .list t, x, h, hB => by
    rcases h with rfl | ⟨vs, rfl, h⟩
    · exact ⟨_, .same _, .inl rfl, id⟩
    · have : ∃ vs', List.Forall₂ PartOf vs' vs ∧ ∀ y ∈ vs', Admits B' t y := by
        have hB : ∀ v ∈ vs, ∀ y, sizeOf y ≤ sizeOf v → B y → ∃ y', PartOf y' y ∧ B' y' := by
          intro v hv y hy
          refine hB y ?_
          have := List.sizeOf_lt_of_mem hv
          simp only [JVal.arr.sizeOf_spec]
          omega
        clear * - h hB hobj
        induction vs with
        | nil => exact ⟨[], .nil, by simp⟩
        | cons v vs ih =>
          obtain ⟨vs', h1, h2⟩ := ih (fun y hy => h y (by simp [hy])) (fun v hv => hB v (by simp [hv]))
          obtain ⟨v', h3, h4, _⟩ := admits_part hobj t v (h v (by simp)) (hB v (by simp))
          refine ⟨v' :: vs', .cons h3 h1, ?_⟩
          intro y hy
          rcases List.mem_cons.1 hy with rfl | hy
          · exact h4
          · exact h2 y hy
      obtain ⟨vs', h1, h2⟩ := this
      exact ⟨.arr vs', .arr h1, .inr ⟨vs', rfl, h2⟩, fun _ e => JVal.noConfusion e⟩
  | .nonNull t, x, h, hB => by
    obtain ⟨x', h1, h2, h3⟩ := admits_part hobj t x h.2 hB
    exact ⟨x', h1, ⟨h3 h.1, h2⟩, h3⟩

/-- The objects in a value are values of its named type. -/
theorem admits_inner {B : JVal → Prop} (hB : ∀ y, B y → ∃ fs, y = .obj fs) {y : JVal} :
    ∀ (t : VarTy) (x : JVal), Admits B t x → ObjectIn y x → B y
  | .named _, x, h, ho => by
    rcases h with rfl | h
    · cases ho
    · obtain ⟨fs, rfl⟩ := hB x h
      cases ho with
      | self e => rw [e]; exact h
  | .list t, x, h, ho => by
    rcases h with rfl | ⟨vs, rfl, h⟩
    · cases ho
    · cases ho with
      | item hx ho => exact admits_inner hB t _ (h _ hx) ho
  | .nonNull t, x, h, ho => admits_inner hB t x h.2 ho

/-! ### Answers -/

/-- What the properties of an answer are. -/
structure Fills (doc : JSchema) (frags : Frags) (applies : List Directive → Prop)
    (scalars : String → JVal → Prop) (T : String) (L : List Wanted) (fs : List (String × JVal)) : Prop where
  nodup : (fs.map Prod.fst).Nodup
  keys : ∀ key, key ∈ fs.map Prod.fst ↔ key ∈ L.map Wanted.key
  values : ∀ w ∈ L, ∃ x, (w.key, x) ∈ fs ∧ ∃ r rest,
    L.filter (fun w' => decide (w'.key = w.key)) = r :: rest ∧
    ((r.name = "__typename" ∧ x = .str T) ∨ (r.name ≠ "__typename" ∧ ∃ kind t,
      fieldType doc T r.name = some (kind, t) ∧ Admits (fun y =>
        if CompositeKind kind then ∃ T' ∈ objectTypes doc (baseName t),
          ∀ n, AnswersTo doc frags applies scalars n T' ((r :: rest).map Wanted.items) y
        else LeafValue doc scalars kind (baseName t) y) t x))

theorem nodup_value {fs : List (String × JVal)} (h : (fs.map Prod.fst).Nodup) {k : String} {x y : JVal}
    (hx : (k, x) ∈ fs) (hy : (k, y) ∈ fs) : x = y := by
  induction fs with
  | nil => simp at hx
  | cons f fs ih =>
    rw [List.map_cons, List.nodup_cons] at h
    rcases List.mem_cons.1 hx with e1 | hx1 <;> rcases List.mem_cons.1 hy with e2 | hy1
    · rw [← e1] at e2
      exact (Prod.mk.inj e2).2.symm
    · subst e1
      exact absurd (List.mem_map.2 ⟨_, hy1, rfl⟩) h.1
    · subst e2
      exact absurd (List.mem_map.2 ⟨_, hx1, rfl⟩) h.1
    · exact ih h.2 hx1 hy1

theorem collectMany_det {T : String} {sets : List (List Selection)} {L L' : List Wanted}
    (h : CollectMany doc frags applies T sets L) (h' : CollectMany doc frags applies T sets L') : L = L' := by
  obtain ⟨Ls, h, rfl⟩ := h
  obtain ⟨Ls', h', rfl⟩ := h'
  induction h generalizing Ls' with
  | nil => cases h'; rfl
  | cons h1 _ ih =>
    cases h' with
    | cons h1' h2' =>
      rw [List.flatten_cons, List.flatten_cons, collect_det h1 h1', ih _ h2']

/-- An answer down to all depths, read once. -/
theorem answers_fill {T : String} {sets : List (List Selection)} {u : JVal}
    (h : ∀ n, AnswersTo doc frags applies scalars n T sets u) :
    ∃ L fs, u = .obj fs ∧ CollectMany doc frags applies T sets L ∧ Fills doc frags applies scalars T L fs := by
  obtain ⟨L, hL, fs, rfl, h1, h2, _⟩ := h 1
  refine ⟨L, fs, rfl, hL, h1, h2, ?_⟩
  intro w hw
  have hn : ∀ n, ∃ x, (w.key, x) ∈ fs ∧ ∃ r rest,
      L.filter (fun w' => decide (w'.key = w.key)) = r :: rest ∧
      ValueFor (AnswersTo doc frags applies scalars n) doc scalars T r rest x := by
    intro n
    obtain ⟨L', hL', fs', e, _, _, h3⟩ := h (n + 1)
    cases e
    rw [collectMany_det hL hL'] at hw ⊢
    exact h3 w hw
  obtain ⟨x, hx, r, rest, hr, h0⟩ := hn 0
  have hn : ∀ n, ValueFor (AnswersTo doc frags applies scalars n) doc scalars T r rest x := by
    intro n
    obtain ⟨x', hx', r', rest', hr', hv⟩ := hn n
    rw [hr] at hr'
    cases hr'
    rw [nodup_value h1 hx hx']
    exact hv
  refine ⟨x, hx, r, rest, hr, ?_⟩
  rcases h0 with h0 | ⟨hne, kind, t, hf, _⟩
  · exact .inl h0
  · refine .inr ⟨hne, kind, t, hf, ?_⟩
    have hall : ∀ n, Admits (fun y => if CompositeKind kind then
        ∃ T' ∈ objectTypes doc (baseName t),
          AnswersTo doc frags applies scalars n T' ((r :: rest).map Wanted.items) y
        else LeafValue doc scalars kind (baseName t) y) t x := by
      intro n
      rcases hn n with hv | ⟨_, kind', t', hf', ha⟩
      · exact absurd hv.1 hne
      · rw [hf] at hf'
        cases hf'
        exact ha
    refine admits_mono ?_ t x (admits_all t x hall)
    intro y hy
    by_cases hk : CompositeKind kind
    · simp only [if_pos hk] at hy ⊢
      exact one_for_all (p := fun n T' => AnswersTo doc frags applies scalars n T' _ y)
        (fun k n T hkn ha => answers_le hkn ha) _ hy
    · simpa only [if_neg hk] using hy 0

theorem fill_answers {T : String} {sets : List (List Selection)} {L : List Wanted}
    {fs : List (String × JVal)} (hL : CollectMany doc frags applies T sets L)
    (h : Fills doc frags applies scalars T L fs) (n : Nat) :
    AnswersTo doc frags applies scalars n T sets (.obj fs) := by
  cases n with
  | zero => exact ⟨fs, rfl⟩
  | succ n =>
    refine ⟨L, hL, fs, rfl, h.nodup, h.keys, ?_⟩
    intro w hw
    obtain ⟨x, hx, r, rest, hr, hv⟩ := h.values w hw
    refine ⟨x, hx, r, rest, hr, ?_⟩
    rcases hv with hv | ⟨hne, kind, t, hf, ha⟩
    · exact .inl hv
    · refine .inr ⟨hne, kind, t, hf, admits_mono ?_ t x ha⟩
      intro y hy
      by_cases hk : CompositeKind kind
      · simp only [if_pos hk] at hy ⊢
        obtain ⟨T', hT', hy⟩ := hy
        exact ⟨T', hT', hy n⟩
      · simpa only [if_neg hk] using hy

theorem sizeOf_value {fs : List (String × JVal)} {k : String} {x : JVal} (h : (k, x) ∈ fs) :
    sizeOf x < sizeOf (JVal.obj fs) := by
  have h1 := List.sizeOf_lt_of_mem h
  have h2 : sizeOf (k, x) = 1 + sizeOf k + sizeOf x := rfl
  simp only [JVal.obj.sizeOf_spec]
  omega

theorem mergesWell_step {T : String} {sets : List (List Selection)} {L : List Wanted}
    (hm : ∀ n, MergesWell doc frags applies n T sets) (hL : CollectMany doc frags applies T sets L)
    {w : Wanted} (hw : w ∈ L) : (∀ w' ∈ L, w'.key = w.key → w'.name = w.name) ∧
      ∀ k t, fieldType doc T w.name = some (k, t) → ∀ T' ∈ objectTypes doc (baseName t), ∀ n,
        MergesWell doc frags applies n T'
          ((L.filter (fun w' => decide (w'.key = w.key))).map Wanted.items) :=
  ⟨(hm 1 L hL w hw).1, fun k t hf T' hT' n => (hm (n + 1) L hL w hw).2 k t hf T' hT'⟩

/-- **Parts of answers.** Part of the selections has part of the answer for its answer. -/
theorem part_answers (k : Nat) : ∀ (T : String) (sets sets' : List (List Selection)) (L L' : List Wanted)
    (u : JVal), sizeOf u ≤ k → CollectMany doc frags applies T sets L →
    CollectMany doc frags applies T sets' L' → (∀ w ∈ L, w ∈ L') →
    (∀ n, MergesWell doc frags applies n T sets') →
    (∀ n, AnswersTo doc frags applies scalars n T sets' u) →
    ∃ v, PartOf v u ∧ ∀ n, AnswersTo doc frags applies scalars n T sets v := by
  induction k with
  | zero =>
    intro T sets sets' L L' u hk _ _ _ _ h
    obtain ⟨fs, rfl⟩ := h 0
    simp at hk
  | succ k ih =>
    intro T sets sets' L L' u hk hL hL' hsub hm h
    obtain ⟨L'', fs, rfl, hL'', F⟩ := answers_fill h
    have e := collectMany_det hL' hL''
    subst e
    -- what a property is replaced by
    let Good (key : String) (x : JVal) : Prop := ∃ r rest,
      L.filter (fun w' => decide (w'.key = key)) = r :: rest ∧
      ((r.name = "__typename" ∧ x = .str T) ∨ (r.name ≠ "__typename" ∧ ∃ kind t,
        fieldType doc T r.name = some (kind, t) ∧ Admits (fun y =>
          if CompositeKind kind then ∃ T' ∈ objectTypes doc (baseName t),
            ∀ n, AnswersTo doc frags applies scalars n T' ((r :: rest).map Wanted.items) y
          else LeafValue doc scalars kind (baseName t) y) t x))
    have hgood : ∀ key x, (key, x) ∈ fs → key ∈ L.map Wanted.key → ∃ x', PartOf x' x ∧ Good key x' := by
      intro key x hx hkey
      obtain ⟨w, hw, rfl⟩ := List.mem_map.1 hkey
      obtain ⟨x', hx', r', rest', hr', hv⟩ := F.values w (hsub w hw)
      have e := nodup_value F.nodup hx hx'
      subst e
      have hr'L : r' ∈ L' ∧ r'.key = w.key := by
        have : r' ∈ L'.filter (fun w' => decide (w'.key = w.key)) := by rw [hr']; simp
        simpa using List.mem_filter.1 this
      cases hr : L.filter (fun w' => decide (w'.key = w.key)) with
      | nil =>
        have : w ∈ L.filter (fun w' => decide (w'.key = w.key)) := List.mem_filter.2 ⟨hw, by simp⟩
        rw [hr] at this
        simp at this
      | cons r rest =>
        have hrL : r ∈ L ∧ r.key = w.key := by
          have : r ∈ L.filter (fun w' => decide (w'.key = w.key)) := by rw [hr]; simp
          simpa using List.mem_filter.1 this
        obtain ⟨m1, m2⟩ := mergesWell_step hm hL' (hsub w hw)
        have hn : r.name = r'.name := by rw [m1 r (hsub r hrL.1) hrL.2, m1 r' hr'L.1 hr'L.2]
        have hwn : w.name = r'.name := (m1 r' hr'L.1 hr'L.2).symm
        rcases hv with hv | ⟨hne, kind, t, hf, ha⟩
        · exact ⟨x, .same x, r, rest, hr, .inl ⟨by rw [hn]; exact hv.1, hv.2⟩⟩
        · by_cases hkind : CompositeKind kind
          · simp only [if_pos hkind] at ha
            obtain ⟨x', p1, p2, _⟩ := admits_part (B' := fun y => ∃ T' ∈ objectTypes doc (baseName t),
              ∀ n, AnswersTo doc frags applies scalars n T' ((r :: rest).map Wanted.items) y) (by
                rintro y ⟨_, _, hy⟩ rfl
                obtain ⟨_, e⟩ := hy 0
                exact JVal.noConfusion e) t x ha (by
              rintro y hy ⟨T', hT', hans⟩
              obtain ⟨LL', _, _, hLL', _⟩ := answers_fill hans
              have hsub2 : ∀ s ∈ (r :: rest).map Wanted.items, s ∈ (r' :: rest').map Wanted.items := by
                rw [← hr, ← hr']
                intro s hs
                obtain ⟨w', hw', rfl⟩ := List.mem_map.1 hs
                obtain ⟨h1, h2⟩ := List.mem_filter.1 hw'
                exact List.mem_map.2 ⟨w', List.mem_filter.2 ⟨hsub w' h1, h2⟩, rfl⟩
              obtain ⟨LL, hLL, hs2⟩ := collectMany_sub hLL' hsub2
              have hlt := sizeOf_value hx
              obtain ⟨y', q1, q2⟩ := ih T' _ _ LL LL' y (by omega) hLL hLL' hs2 (by
                rw [← hr']
                exact m2 kind t (by rw [hwn]; exact hf) T' hT') hans
              exact ⟨y', q1, T', hT', q2⟩)
            refine ⟨x', p1, r, rest, hr, .inr ⟨by rw [hn]; exact hne, kind, t, by rw [hn]; exact hf, ?_⟩⟩
            simpa only [if_pos hkind] using p2
          · simp only [if_neg hkind] at ha
            refine ⟨x, .same x, r, rest, hr, .inr ⟨by rw [hn]; exact hne, kind, t, by rw [hn]; exact hf, ?_⟩⟩
            simpa only [if_neg hkind] using ha
    have hpick : ∃ pick : List (String × JVal × JVal),
        pick.map Prod.fst = (fs.map Prod.fst).filter (fun key => decide (key ∈ L.map Wanted.key)) ∧
        ∀ t ∈ pick, (t.1, t.2.2) ∈ fs ∧ PartOf t.2.1 t.2.2 ∧ Good t.1 t.2.1 := by
      clear * - hgood
      induction fs with
      | nil => exact ⟨[], rfl, by simp⟩
      | cons f fs ih =>
        obtain ⟨pick, h1, h2⟩ := ih (fun key x hx => hgood key x (by simp [hx]))
        by_cases hf : f.1 ∈ L.map Wanted.key
        · obtain ⟨x', p1, p2⟩ := hgood f.1 f.2 (by simp) hf
          refine ⟨(f.1, x', f.2) :: pick, by simp only [List.map_cons, List.filter_cons, decide_eq_true hf, h1]; simp, ?_⟩
          intro t ht
          rcases List.mem_cons.1 ht with rfl | ht
          · exact ⟨by simp, p1, p2⟩
          · exact ⟨by simp [(h2 t ht).1], (h2 t ht).2⟩
        · refine ⟨pick, by simp only [List.map_cons, List.filter_cons, decide_eq_false hf, h1]; simp, ?_⟩
          intro t ht
          exact ⟨by simp [(h2 t ht).1], (h2 t ht).2⟩
    obtain ⟨pick, hp1, hp2⟩ := hpick
    have hkeys : (pick.map (fun t => (t.1, t.2.1))).map Prod.fst = pick.map Prod.fst := by
      rw [List.map_map]
      rfl
    refine ⟨.obj (pick.map (fun t => (t.1, t.2.1))), .obj pick rfl (fun t ht => (hp2 t ht).1)
      (fun t ht => (hp2 t ht).2.1), fun n => fill_answers hL ⟨?_, ?_, ?_⟩ n⟩
    · rw [hkeys, hp1]
      exact F.nodup.filter _
    · intro key
      rw [hkeys, hp1, List.mem_filter, F.keys]
      constructor
      · intro h; simpa using h.2
      · intro h
        refine ⟨?_, by simpa using h⟩
        obtain ⟨w, hw, rfl⟩ := List.mem_map.1 h
        exact List.mem_map.2 ⟨w, hsub w hw, rfl⟩
    · intro w hw
      have : w.key ∈ pick.map Prod.fst := by
        rw [hp1, List.mem_filter, F.keys]
        exact ⟨List.mem_map.2 ⟨w, hsub w hw, rfl⟩, by simpa using ⟨w, hw, rfl⟩⟩
      obtain ⟨t, ht, e⟩ := List.mem_map.1 this
      obtain ⟨_, _, hg⟩ := hp2 t ht
      refine ⟨t.2.1, List.mem_map.2 ⟨t, ht, by rw [e]⟩, ?_⟩
      rw [e] at hg
      exact hg

/-! ### Places -/

theorem subTy_objects : ∀ {a b : VarTy}, SubTy doc a b → ∀ T ∈ objectTypes doc (baseName a),
    T ∈ objectTypes doc (baseName b)
  | .named A, .named B, h, T, hT => by
    rcases h with rfl | ⟨_, _, h⟩
    · exact hT
    · exact h T hT
  | .named _, .list _, h, _, _ => by simp [SubTy] at h
  | .named _, .nonNull _, h, _, _ => by simp [SubTy] at h
  | .list a, .list b, h, T, hT => subTy_objects (a := a) (b := b) h T hT
  | .list _, .named _, h, _, _ => by simp [SubTy] at h
  | .list _, .nonNull _, h, _, _ => by simp [SubTy] at h
  | .nonNull a, .nonNull b, h, T, hT => subTy_objects (a := a) (b := b) h T hT
  | .nonNull a, .named B, h, T, hT => subTy_objects (a := a) (b := .named B) h T hT
  | .nonNull a, .list b, h, T, hT => subTy_objects (a := a) (b := .list b) h T hT

theorem subTy_names : ∀ {a b : VarTy}, SubTy doc a b → baseName a = baseName b ∨ CompositeNamed doc (baseName a)
  | .named A, .named B, h => h.imp id (fun h => h.1)
  | .named _, .list _, h => by simp [SubTy] at h
  | .named _, .nonNull _, h => by simp [SubTy] at h
  | .list a, .list b, h => subTy_names (a := a) (b := b) h
  | .list _, .named _, h => by simp [SubTy] at h
  | .list _, .nonNull _, h => by simp [SubTy] at h
  | .nonNull a, .nonNull b, h => subTy_names (a := a) (b := b) h
  | .nonNull a, .named B, h => subTy_names (a := a) (b := .named B) h
  | .nonNull a, .list b, h => subTy_names (a := a) (b := .list b) h

theorem fieldType_baseKind (hv : ValidDoc doc) {P name k : String} {t : VarTy}
    (h : fieldType doc P name = some (k, t)) : kindNamed doc (baseName t) = some k := by
  unfold fieldType at h
  cases hl : lastNamed JField.name name (declaredFields doc P) with
  | none => rw [hl] at h; simp at h
  | some f =>
    rw [hl] at h
    have h : refType f.typeInformation = some (k, t) := h
    obtain ⟨k', t', h', _, _, hk⟩ := hv.refs P f (lastNamed_mem hl).1
    rw [h] at h'
    cases h'
    exact hk

/-- **At every place.** Where the selections spread the fragment, part of each object of the answer is an answer
to the fragment. -/
theorem place_answers (hv : ValidDoc doc) {F : FragmentDef} {P : String} {items : List Selection}
    {path : List String} (hat : SpreadAt doc frags applies F P items path) :
    ∀ (T : String) (sets : List (List Selection)) (L L₁ : List Wanted) (u y : JVal), T ∈ objectTypes doc P →
    CollectMany doc frags applies T sets L → Collect doc frags applies T items L₁ → (∀ w ∈ L₁, w ∈ L) →
    (∀ n, MergesWell doc frags applies n T sets) →
    (∀ n, AnswersTo doc frags applies scalars n T sets u) → ObjectAt y path u →
    ∃ T' ∈ objectTypes doc F.typeCond, ∃ v, PartOf v y ∧
      ∀ n, AnswersTo doc frags applies scalars n T' [F.items] v := by
  induction hat with
  | here hmem hd hf hfit =>
    intro T sets L L₁ u y hT hL hL₁ hsub hm h hy
    cases hy
    obtain ⟨L₂, h2, hsub2⟩ := collect_spread hL₁ hmem hd hf (hfit T hT)
    obtain ⟨v, hv, hans⟩ := part_answers _ T [F.items] sets L₂ L u (Nat.le_refl _)
      ⟨[L₂], .cons h2 .nil, by simp⟩ hL (fun w hw => hsub w (hsub2 w hw)) hm h
    exact ⟨T, hfit T hT, v, hv, hans⟩
  | @field P items pos al name args dirs sub k t path hmem hd hft hck _ ih =>
    intro T sets L L₁ u y hT hL hL₁ hsub hm h hy
    obtain ⟨L', fs, rfl, hL', Fi⟩ := answers_fill h
    have e := collectMany_det hL hL'
    subst e
    have hw := hsub _ (collect_field hL₁ hmem hd)
    cases hy with
    | @under _ _ _ x z hx hz hy =>
    obtain ⟨x', hx', r, rest, hr, hval⟩ := Fi.values _ hw
    have e := nodup_value Fi.nodup hx hx'
    subst e
    obtain ⟨m1, m2⟩ := mergesWell_step hm hL hw
    have hrL : r ∈ L ∧ r.key = al.getD name := by
      have : r ∈ L.filter (fun w' => decide (w'.key = al.getD name)) := by rw [hr]; simp
      simpa using List.mem_filter.1 this
    have hrn : r.name = name := m1 r hrL.1 hrL.2
    obtain ⟨k', t', hf', hst⟩ := hv.covariant P T hT name k t hft
    rcases hval with ⟨hty, rfl⟩ | ⟨_, kind, t₁, hf₁, ha⟩
    · cases hz
    · rw [hrn, hf'] at hf₁
      cases hf₁
      by_cases hkind : CompositeKind k'
      · simp only [if_pos hkind] at ha
        obtain ⟨T', hT', hans⟩ := admits_inner (by
          rintro y ⟨_, _, hy⟩
          exact hy 0) t' x ha hz
        obtain ⟨LL, _, _, hLL, _⟩ := answers_fill hans
        have hmemsub : sub ∈ (r :: rest).map Wanted.items := by
          rw [← hr]
          exact List.mem_map.2 ⟨_, List.mem_filter.2 ⟨hw, by simp⟩, rfl⟩
        obtain ⟨LL₁, hLL₁, hs1⟩ := collectMany_part hLL hmemsub
        exact ih T' _ LL LL₁ z y (subTy_objects hst T' hT') hLL hLL₁ hs1 (by
          rw [← hr]
          exact m2 k' t' hf' T' hT') hans hy
      · exfalso
        have hk' := fieldType_baseKind hv hf'
        rcases subTy_names hst with e | ⟨k'', h1, h2⟩
        · rw [e, fieldType_baseKind hv hft] at hk'
          cases hk'
          exact hkind hck
        · rw [hk'] at h1
          cases h1
          exact hkind h2
  | inline hmem hd hfit _ ih =>
    intro T sets L L₁ u y hT hL hL₁ hsub hm h hy
    obtain ⟨L₂, h2, hsub2⟩ := collect_inline hL₁ hmem hd (hfit T hT)
    exact ih T sets L L₂ u y (hfit T hT) hL h2 (fun w hw => hsub w (hsub2 w hw)) hm h hy
  | spread hmem hd hf hfit _ ih =>
    intro T sets L L₁ u y hT hL hL₁ hsub hm h hy
    obtain ⟨L₂, h2, hsub2⟩ := collect_spread hL₁ hmem hd hf (hfit T hT)
    exact ih T sets L L₂ u y (hfit T hT) hL h2 (fun w hw => hsub w (hsub2 w hw)) hm h hy

/-! ### The fragments in scope -/

/-- Every fragment that a valid selection set spreads is in scope. -/
theorem spreads_known {schema : Schema} {frags : Frags} (k : Nat) : ∀ (P : String) (N : List String)
    (items : List Selection), sizeOf items ≤ k →
    (∀ P' N' sel, Occurs schema P N items P' N' sel → SelOk schema frags P' sel) →
    ∀ x ∈ spreadsSels items, ∃ fd, AMap.get? frags x = some fd := by
  induction k with
  | zero =>
    intro P N items hk
    cases items with
    | nil => simp at hk
    | cons => simp at hk
  | succ k ih =>
    intro P N items hk hok x hx
    have : ∃ s ∈ items, x ∈ spreadsSel s := by
      clear * - hx
      induction items with
      | nil => simp [spreadsSels] at hx
      | cons s items ih =>
        rw [spreadsSels, List.mem_append] at hx
        rcases hx with hx | hx
        · exact ⟨s, by simp, hx⟩
        · obtain ⟨s', h1, h2⟩ := ih hx
          exact ⟨s', by simp [h1], h2⟩
    obtain ⟨s, hs, hx⟩ := this
    have hlt := List.sizeOf_lt_of_mem hs
    have hsok := hok P N s (.here hs)
    cases s with
    | field pos al name args dirs sub =>
      rw [spreadsSel] at hx
      obtain ⟨f, hf, hc⟩ := hsok
      have hcomp : IsComposite schema f.type.name := hc.1 (by rintro rfl; simp [spreadsSels] at hx)
      exact ih f.type.name _ sub (by simp at hlt; omega)
        (fun P' N' sel ho => hok P' N' sel (.field hs hf hcomp ho)) x hx
    | inline pos cond dirs sub =>
      rw [spreadsSel] at hx
      obtain ⟨C, rfl, hcomp⟩ := hsok
      exact ih C _ sub (by simp at hlt; omega)
        (fun P' N' sel ho => hok P' N' sel (.inline hs hcomp ho)) x hx
    | spread pos name dirs =>
      rw [spreadsSel, List.mem_singleton] at hx
      subst hx
      exact hsok

/-- The selections spread fragments in scope only. -/
def SpreadsKnown (frags : Frags) (items : List Selection) : Prop :=
  ∀ x ∈ spreadsSels items, ∃ fd, AMap.get? frags x = some fd

theorem known_cons {frags : Frags} {s : Selection} {items : List Selection} (h : SpreadsKnown frags (s :: items)) :
    (∀ x ∈ spreadsSel s, ∃ fd, AMap.get? frags x = some fd) ∧ SpreadsKnown frags items :=
  ⟨fun x hx => h x (by rw [spreadsSels]; exact List.mem_append_left _ hx),
    fun x hx => h x (by rw [spreadsSels]; exact List.mem_append_right _ hx)⟩

/-- Collecting with fewer fragments in scope. -/
theorem collect_scope {frags' : Frags} (hsub : ∀ x fd, AMap.get? frags' x = some fd → AMap.get? frags x = some fd)
    (hknown : ∀ x fd, AMap.get? frags' x = some fd → SpreadsKnown frags' fd.items) {T : String}
    {items : List Selection} {L : List Wanted} (h : Collect doc frags applies T items L) :
    SpreadsKnown frags' items → Collect doc frags' applies T items L ∧ ∀ w ∈ L, SpreadsKnown frags' w.items := by
  induction h with
  | nil => exact fun _ => ⟨.nil, by simp⟩
  | leftOutField hd _ ih =>
    intro hk
    exact ⟨.leftOutField hd (ih (known_cons hk).2).1, (ih (known_cons hk).2).2⟩
  | leftOutInline hd _ ih =>
    intro hk
    exact ⟨.leftOutInline hd (ih (known_cons hk).2).1, (ih (known_cons hk).2).2⟩
  | leftOutSpread hd _ ih =>
    intro hk
    exact ⟨.leftOutSpread hd (ih (known_cons hk).2).1, (ih (known_cons hk).2).2⟩
  | field hd _ ih =>
    intro hk
    obtain ⟨k1, k2⟩ := known_cons hk
    refine ⟨.field hd (ih k2).1, ?_⟩
    intro w hw
    rcases List.mem_cons.1 hw with rfl | hw
    · intro x hx
      exact k1 x (by rw [spreadsSel]; exact hx)
    · exact (ih k2).2 w hw
  | inline hd hc _ _ ih1 ih2 =>
    intro hk
    obtain ⟨k1, k2⟩ := known_cons hk
    have i1 := ih1 (fun x hx => k1 x (by rw [spreadsSel]; exact hx))
    refine ⟨.inline hd hc i1.1 (ih2 k2).1, ?_⟩
    intro w hw
    rcases List.mem_append.1 hw with hw | hw
    · exact i1.2 w hw
    · exact (ih2 k2).2 w hw
  | otherInline hd hc _ ih =>
    intro hk
    exact ⟨.otherInline hd hc (ih (known_cons hk).2).1, (ih (known_cons hk).2).2⟩
  | spread hd hf hc _ _ ih1 ih2 =>
    intro hk
    obtain ⟨k1, k2⟩ := known_cons hk
    obtain ⟨fd', hfd'⟩ := k1 _ (by rw [spreadsSel]; exact List.mem_singleton_self _)
    have e := hsub _ _ hfd'
    rw [hf] at e
    cases e
    have i1 := ih1 (hknown _ _ hfd')
    refine ⟨.spread hd hfd' hc i1.1 (ih2 k2).1, ?_⟩
    intro w hw
    rcases List.mem_append.1 hw with hw | hw
    · exact i1.2 w hw
    · exact (ih2 k2).2 w hw
  | otherSpread hd hf hc _ ih =>
    intro hk
    obtain ⟨k1, k2⟩ := known_cons hk
    obtain ⟨fd', hfd'⟩ := k1 _ (by rw [spreadsSel]; exact List.mem_singleton_self _)
    have e := hsub _ _ hfd'
    rw [hf] at e
    cases e
    exact ⟨.otherSpread hd hfd' hc (ih k2).1, (ih k2).2⟩

theorem collectMany_scope {frags' : Frags}
    (hsub : ∀ x fd, AMap.get? frags' x = some fd → AMap.get? frags x = some fd)
    (hknown : ∀ x fd, AMap.get? frags' x = some fd → SpreadsKnown frags' fd.items) {T : String}
    {sets : List (List Selection)} {L : List Wanted} (h : CollectMany doc frags applies T sets L)
    (hk : ∀ s ∈ sets, SpreadsKnown frags' s) :
    CollectMany doc frags' applies T sets L ∧ ∀ w ∈ L, SpreadsKnown frags' w.items := by
  obtain ⟨Ls, h, rfl⟩ := h
  have : List.Forall₂ (Collect doc frags' applies T) sets Ls ∧ ∀ w ∈ Ls.flatten, SpreadsKnown frags' w.items := by
    induction h with
    | nil => exact ⟨.nil, by simp⟩
    | cons h1 _ ih =>
      obtain ⟨c1, c2⟩ := collect_scope hsub hknown h1 (hk _ (by simp))
      obtain ⟨i1, i2⟩ := ih (fun s hs => hk s (by simp [hs]))
      refine ⟨.cons c1 i1, ?_⟩
      intro w hw
      rw [List.flatten_cons] at hw
      rcases List.mem_append.1 hw with hw | hw
      · exact c2 w hw
      · exact i2 w hw
  exact ⟨⟨Ls, this.1, rfl⟩, this.2⟩

/-- Answers with fewer fragments in scope. -/
theorem answers_scope {frags' : Frags}
    (hsub : ∀ x fd, AMap.get? frags' x = some fd → AMap.get? frags x = some fd)
    (hknown : ∀ x fd, AMap.get? frags' x = some fd → SpreadsKnown frags' fd.items) (n : Nat) :
    ∀ (T : String) (sets : List (List Selection)) (u : JVal), (∀ s ∈ sets, SpreadsKnown frags' s) →
    AnswersTo doc frags applies scalars n T sets u → AnswersTo doc frags' applies scalars n T sets u := by
  induction n with
  | zero => intro T sets u _ h; exact h
  | succ n ih =>
    rintro T sets u hk ⟨L, hL, fs, rfl, h1, h2, h3⟩
    obtain ⟨hL', hkL⟩ := collectMany_scope hsub hknown hL hk
    refine ⟨L, hL', fs, rfl, h1, h2, ?_⟩
    intro w hw
    obtain ⟨x, hx, r, rest, hr, hv⟩ := h3 w hw
    refine ⟨x, hx, r, rest, hr, ?_⟩
    rcases hv with hv | ⟨hne, kind, t, hf, ha⟩
    · exact .inl hv
    · refine .inr ⟨hne, kind, t, hf, admits_mono ?_ t x ha⟩
      intro y hy
      by_cases hkind : CompositeKind kind
      · simp only [if_pos hkind] at hy ⊢
        obtain ⟨T', hT', hy⟩ := hy
        refine ⟨T', hT', ih T' _ y ?_ hy⟩
        intro s hs
        obtain ⟨w', hw', rfl⟩ := List.mem_map.1 hs
        rw [← hr] at hw'
        exact hkL w' (List.mem_filter.1 hw').1
      · simpa only [if_neg hkind] using hy

/-! ### A check for the merging of fields -/

mutual
/-- Response key and field name of every field in a selection. -/
def keyNamesSel : Selection → List (String × String)
  | .field _ al name _ _ items => (al.getD name, name) :: keyNames items
  | .inline _ _ _ items => keyNames items
  | .spread _ _ _ => []
/-- Response key and field name of every field in a selection set. -/
def keyNames : List Selection → List (String × String)
  | [] => []
  | s :: rest => keyNamesSel s ++ keyNames rest
end

theorem collect_keyNames {A : List (String × String)}
    (hfr : ∀ x fd, AMap.get? frags x = some fd → ∀ a ∈ keyNames fd.items, a ∈ A) {T : String}
    {items : List Selection} {L : List Wanted} (h : Collect doc frags applies T items L) :
    (∀ a ∈ keyNames items, a ∈ A) → ∀ w ∈ L, (w.key, w.name) ∈ A ∧ ∀ a ∈ keyNames w.items, a ∈ A := by
  induction h with
  | nil => simp
  | leftOutField _ _ ih | leftOutInline _ _ ih | leftOutSpread _ _ ih =>
    intro hk
    exact ih (fun a ha => hk a (by rw [keyNames]; exact List.mem_append_right _ ha))
  | otherInline _ _ _ ih =>
    intro hk
    exact ih (fun a ha => hk a (by rw [keyNames]; exact List.mem_append_right _ ha))
  | otherSpread _ _ _ _ ih =>
    intro hk
    exact ih (fun a ha => hk a (by rw [keyNames]; exact List.mem_append_right _ ha))
  | field _ _ ih =>
    intro hk w hw
    rw [keyNames, keyNamesSel] at hk
    rcases List.mem_cons.1 hw with rfl | hw
    · exact ⟨hk _ (by simp), fun a ha => hk a (by simp [ha])⟩
    · exact ih (fun a ha => hk a (by simp [ha])) w hw
  | inline _ _ _ _ ih1 ih2 =>
    intro hk w hw
    rw [keyNames, keyNamesSel] at hk
    rcases List.mem_append.1 hw with hw | hw
    · exact ih1 (fun a ha => hk a (by simp [ha])) w hw
    · exact ih2 (fun a ha => hk a (by simp [ha])) w hw
  | spread _ hf _ _ _ ih1 ih2 =>
    intro hk w hw
    rw [keyNames, keyNamesSel] at hk
    rcases List.mem_append.1 hw with hw | hw
    · exact ih1 (hfr _ _ hf) w hw
    · exact ih2 (fun a ha => hk a (by simp [ha])) w hw

/-- Fields merge well where no response key is used for two fields anywhere. -/
theorem mergesWell_of_keys {A : List (String × String)} (hA : ∀ a ∈ A, ∀ b ∈ A, a.1 = b.1 → a.2 = b.2)
    (hfr : ∀ x fd, AMap.get? frags x = some fd → ∀ a ∈ keyNames fd.items, a ∈ A) (n : Nat) :
    ∀ (T : String) (sets : List (List Selection)), (∀ s ∈ sets, ∀ a ∈ keyNames s, a ∈ A) →
    MergesWell doc frags applies n T sets := by
  induction n with
  | zero => intros; trivial
  | succ n ih =>
    intro T sets hk L hL
    have hall : ∀ w ∈ L, (w.key, w.name) ∈ A ∧ ∀ a ∈ keyNames w.items, a ∈ A := by
      obtain ⟨Ls, h, rfl⟩ := hL
      intro w hw
      obtain ⟨L₁, h1, hw⟩ := List.mem_flatten.1 hw
      obtain ⟨s, hs, h⟩ := forall₂_mem h L₁ h1
      exact collect_keyNames hfr h (hk s hs) w hw
    intro w hw
    refine ⟨fun w' hw' e => hA _ (hall w' hw').1 _ (hall w hw).1 e, ?_⟩
    intro k t _ T' _
    refine ih T' _ ?_
    intro s hs
    obtain ⟨w', hw', rfl⟩ := List.mem_map.1 hs
    exact (hall w' (List.mem_filter.1 hw').1).2

end Qlc
