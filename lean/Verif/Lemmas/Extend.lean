import Verif.Spec.Extend
import Verif.Lemmas.Compose
/-
Lemmas for C120.
-/
set_option autoImplicit false

namespace Qlc
open Spec

variable {doc : JSchema} {frags frags' : Frags} {applies : List Directive → Prop}
  {scalars : String → JVal → Prop}

theorem moreSels_mem {items items' : List Selection} (h : MoreSels items items') :
    ∀ s ∈ items, ∃ s' ∈ items', MoreSel s s' := by
  induction items with
  | nil => simp
  | cons s items ih =>
    rw [MoreSels] at h
    intro t ht
    rcases List.mem_cons.1 ht with rfl | ht
    · exact h.1
    · exact ih h.2 t ht

/-- Each field of `L` has one in `L'` that asks for at least as much; the selections in `L` spread fragments in
scope. -/
def Covers (frags : Frags) (L L' : List Wanted) : Prop :=
  ∀ w ∈ L, SpreadsKnown frags w.items ∧
    ∃ w' ∈ L', w'.key = w.key ∧ w'.name = w.name ∧ MoreSels w.items w'.items

theorem covers_append {L₁ L₂ L' : List Wanted} (h1 : Covers frags L₁ L') (h2 : Covers frags L₂ L') :
    Covers frags (L₁ ++ L₂) L' := by
  intro w hw
  rcases List.mem_append.1 hw with hw | hw
  · exact h1 w hw
  · exact h2 w hw

theorem covers_mono {L L' L'' : List Wanted} (h : Covers frags L L') (hs : ∀ w ∈ L', w ∈ L'') :
    Covers frags L L'' := by
  intro w hw
  obtain ⟨h1, w', h2, h3⟩ := h w hw
  exact ⟨h1, w', hs w' h2, h3⟩

theorem collect_cons {T : String} {s : Selection} {items : List Selection} {L₁ L : List Wanted}
    (h1 : Collect doc frags applies T [s] L₁) (h2 : Collect doc frags applies T items L) :
    Collect doc frags applies T (s :: items) (L₁ ++ L) := by
  cases h1 with
  | leftOutField hd h => cases h; exact .leftOutField hd h2
  | leftOutInline hd h => cases h; exact .leftOutInline hd h2
  | leftOutSpread hd h => cases h; exact .leftOutSpread hd h2
  | field hd h => cases h; exact .field hd h2
  | inline hd hc h h' => cases h'; rw [List.append_nil]; exact .inline hd hc h h2
  | otherInline hd hc h => cases h; exact .otherInline hd hc h2
  | spread hd hf hc h h' => cases h'; rw [List.append_nil]; exact .spread hd hf hc h h2
  | otherSpread hd hf hc h => cases h; exact .otherSpread hd hf hc h2

theorem known_single {s : Selection} {items : List Selection} (h : SpreadsKnown frags items) (hs : s ∈ items) :
    ∀ x ∈ spreadsSel s, ∃ fd, AMap.get? frags x = some fd := by
  induction items with
  | nil => simp at hs
  | cons t items ih =>
    obtain ⟨h1, h2⟩ := known_cons h
    rcases List.mem_cons.1 hs with rfl | hs
    · exact h1
    · exact ih h2 hs

theorem collect_each {T : String} {L' : List Wanted} : ∀ (items : List Selection),
    (∀ s ∈ items, ∃ L, Collect doc frags applies T [s] L ∧ Covers frags L L') →
    ∃ L, Collect doc frags applies T items L ∧ Covers frags L L'
  | [], _ => ⟨[], .nil, by intro w hw; simp at hw⟩
  | s :: items, h => by
    obtain ⟨L₁, h1, c1⟩ := h s (by simp)
    obtain ⟨L₂, h2, c2⟩ := collect_each items (fun t ht => h t (by simp [ht]))
    exact ⟨L₁ ++ L₂, collect_cons h1 h2, covers_append c1 c2⟩

theorem spreadsKnown_of_sel {pos : Pos} {al : Option String} {name : String} {args : List (String × Value)}
    {dirs : List Directive} {sub : List Selection}
    (h : ∀ x ∈ spreadsSel (.field pos al name args dirs sub), ∃ fd, AMap.get? frags x = some fd) :
    SpreadsKnown frags sub := fun x hx => h x (by rw [spreadsSel]; exact hx)

theorem spreadsKnown_of_inline {pos : Pos} {cond : Option String}
    {dirs : List Directive} {sub : List Selection}
    (h : ∀ x ∈ spreadsSel (.inline pos cond dirs sub), ∃ fd, AMap.get? frags x = some fd) :
    SpreadsKnown frags sub := fun x hx => h x (by rw [spreadsSel]; exact hx)

/-- What collecting the larger set gives covers what collecting the smaller one gives. -/
theorem collect_more (hF : MoreFrags frags frags')
    (hknown : ∀ x fd, AMap.get? frags x = some fd → SpreadsKnown frags fd.items) {T : String}
    {items' : List Selection} {L' : List Wanted} (h : Collect doc frags' applies T items' L') :
    ∀ s' ∈ items', ∀ s, MoreSel s s' → (∀ x ∈ spreadsSel s, ∃ fd, AMap.get? frags x = some fd) →
      ∃ L, Collect doc frags applies T [s] L ∧ Covers frags L L' := by
  have later : ∀ {t : Selection} {rest : List Selection} {L' L'' : List Wanted} {P : Prop},
      (∀ s' ∈ rest, ∀ s, MoreSel s s' → (∀ x ∈ spreadsSel s, ∃ fd, AMap.get? frags x = some fd) →
        ∃ L, Collect doc frags applies T [s] L ∧ Covers frags L L') → (∀ w ∈ L', w ∈ L'') →
      (∀ s, MoreSel s t → (∀ x ∈ spreadsSel s, ∃ fd, AMap.get? frags x = some fd) →
        ∃ L, Collect doc frags applies T [s] L ∧ Covers frags L L'') →
      ∀ s' ∈ t :: rest, ∀ s, MoreSel s s' → (∀ x ∈ spreadsSel s, ∃ fd, AMap.get? frags x = some fd) →
        ∃ L, Collect doc frags applies T [s] L ∧ Covers frags L L'' := by
    intro t rest L' L'' _ ih hsub hh s' hs' s hm hk
    rcases List.mem_cons.1 hs' with rfl | hs'
    · exact hh s hm hk
    · obtain ⟨L, h1, h2⟩ := ih s' hs' s hm hk
      exact ⟨L, h1, covers_mono h2 hsub⟩
  have none : ∀ {L'' : List Wanted}, Covers frags [] L'' := by intro L'' w hw; simp at hw
  induction h with
  | nil => simp
  | leftOutField hd _ ih =>
    refine later (P := True) ih (fun w hw => hw) ?_
    intro s hm hk
    cases s with
    | field pos al name args dirs sub =>
      rw [MoreSel] at hm
      obtain ⟨_, _, _, e, _⟩ := hm
      cases e
      exact ⟨[], .leftOutField hd .nil, none⟩
    | inline => rw [MoreSel] at hm; obtain ⟨_, _, e, _⟩ := hm; cases e
    | spread => rw [MoreSel] at hm; obtain ⟨_, e⟩ := hm; cases e
  | leftOutInline hd _ ih =>
    refine later (P := True) ih (fun w hw => hw) ?_
    intro s hm hk
    cases s with
    | field => rw [MoreSel] at hm; obtain ⟨_, _, _, e, _⟩ := hm; cases e
    | inline =>
      rw [MoreSel] at hm
      obtain ⟨_, _, e, _⟩ := hm
      cases e
      exact ⟨[], .leftOutInline hd .nil, none⟩
    | spread => rw [MoreSel] at hm; obtain ⟨_, e⟩ := hm; cases e
  | leftOutSpread hd _ ih =>
    refine later (P := True) ih (fun w hw => hw) ?_
    intro s hm hk
    cases s with
    | field => rw [MoreSel] at hm; obtain ⟨_, _, _, e, _⟩ := hm; cases e
    | inline => rw [MoreSel] at hm; obtain ⟨_, _, e, _⟩ := hm; cases e
    | spread =>
      rw [MoreSel] at hm
      obtain ⟨_, e⟩ := hm
      cases e
      exact ⟨[], .leftOutSpread hd .nil, none⟩
  | field hd _ ih =>
    refine later (P := True) ih (fun w hw => by simp [hw]) ?_
    intro s hm hk
    cases s with
    | field pos al name args dirs sub =>
      rw [MoreSel] at hm
      obtain ⟨_, _, _, e, hsub⟩ := hm
      cases e
      refine ⟨_, .field hd .nil, ?_⟩
      intro w hw
      rw [List.mem_singleton] at hw
      subst hw
      exact ⟨spreadsKnown_of_sel hk, _, List.mem_cons_self .., rfl, rfl, hsub⟩
    | inline => rw [MoreSel] at hm; obtain ⟨_, _, e, _⟩ := hm; cases e
    | spread => rw [MoreSel] at hm; obtain ⟨_, e⟩ := hm; cases e
  | inline hd hc _ _ ih1 ih2 =>
    refine later (P := True) ih2 (fun w hw => by simp [hw]) ?_
    intro s hm hk
    cases s with
    | field => rw [MoreSel] at hm; obtain ⟨_, _, _, e, _⟩ := hm; cases e
    | inline pos cond dirs sub =>
      rw [MoreSel] at hm
      obtain ⟨_, _, e, hsub⟩ := hm
      cases e
      have hk' := spreadsKnown_of_inline hk
      obtain ⟨L, h1, h2⟩ := collect_each (doc := doc) (applies := applies) (T := T) sub (fun t ht => by
        obtain ⟨t', ht', hm⟩ := moreSels_mem hsub t ht
        exact ih1 t' ht' t hm (known_single hk' ht))
      have := Collect.inline (pos := pos) hd hc h1 .nil
      rw [List.append_nil] at this
      exact ⟨L, this, covers_mono h2 (fun w hw => by simp [hw])⟩
    | spread => rw [MoreSel] at hm; obtain ⟨_, e⟩ := hm; cases e
  | otherInline hd hc _ ih =>
    refine later (P := True) ih (fun w hw => hw) ?_
    intro s hm hk
    cases s with
    | field => rw [MoreSel] at hm; obtain ⟨_, _, _, e, _⟩ := hm; cases e
    | inline =>
      rw [MoreSel] at hm
      obtain ⟨_, _, e, _⟩ := hm
      cases e
      exact ⟨[], .otherInline hd hc .nil, none⟩
    | spread => rw [MoreSel] at hm; obtain ⟨_, e⟩ := hm; cases e
  | @spread pos' name' dirs' fd' rest L₁ L hd hf hc _ _ ih1 ih2 =>
    refine later (P := True) ih2 (fun w hw => by simp [hw]) ?_
    intro s hm hk
    cases s with
    | field => rw [MoreSel] at hm; obtain ⟨_, _, _, e, _⟩ := hm; cases e
    | inline => rw [MoreSel] at hm; obtain ⟨_, _, e, _⟩ := hm; cases e
    | spread pos name dirs =>
      rw [MoreSel] at hm
      obtain ⟨_, e⟩ := hm
      cases e
      obtain ⟨fd, hfd⟩ := hk name' (by rw [spreadsSel]; exact List.mem_singleton_self _)
      obtain ⟨fd'', hfd'', hty, hsub⟩ := hF name' fd hfd
      rw [hf] at hfd''
      cases hfd''
      have hk' := hknown name' fd hfd
      obtain ⟨L, h1, h2⟩ := collect_each (doc := doc) (applies := applies) (T := T) fd.items (fun t ht => by
        obtain ⟨t', ht', hm⟩ := moreSels_mem hsub t ht
        exact ih1 t' ht' t hm (known_single hk' ht))
      have := Collect.spread (pos := pos) hd hfd (by rw [← hty]; exact hc) h1 .nil
      rw [List.append_nil] at this
      exact ⟨L, this, covers_mono h2 (fun w hw => by simp [hw])⟩
  | @otherSpread pos' name' dirs' fd' rest L hd hf hc _ ih =>
    refine later (P := True) ih (fun w hw => hw) ?_
    intro s hm hk
    cases s with
    | field => rw [MoreSel] at hm; obtain ⟨_, _, _, e, _⟩ := hm; cases e
    | inline => rw [MoreSel] at hm; obtain ⟨_, _, e, _⟩ := hm; cases e
    | spread pos name dirs =>
      rw [MoreSel] at hm
      obtain ⟨_, e⟩ := hm
      cases e
      obtain ⟨fd, hfd⟩ := hk name' (by rw [spreadsSel]; exact List.mem_singleton_self _)
      obtain ⟨fd'', hfd'', hty, hsub⟩ := hF name' fd hfd
      rw [hf] at hfd''
      cases hfd''
      exact ⟨[], .otherSpread hd hfd (by rw [← hty]; exact hc) .nil, none⟩

theorem collectMany_more (hF : MoreFrags frags frags')
    (hknown : ∀ x fd, AMap.get? frags x = some fd → SpreadsKnown frags fd.items) {T : String}
    {sets sets' : List (List Selection)} {L' : List Wanted} (h : CollectMany doc frags' applies T sets' L')
    (hsub : ∀ s ∈ sets, SpreadsKnown frags s ∧ ∃ s' ∈ sets', MoreSels s s') :
    ∃ L, CollectMany doc frags applies T sets L ∧ Covers frags L L' := by
  induction sets with
  | nil => exact ⟨[], ⟨[], .nil, rfl⟩, by intro w hw; simp at hw⟩
  | cons s sets ih =>
    obtain ⟨L, ⟨Ls, h1, rfl⟩, h2⟩ := ih (fun s hs => hsub s (by simp [hs]))
    obtain ⟨hk, s', hs', hm⟩ := hsub s (by simp)
    obtain ⟨Ls', h3, h4⟩ := collectMany_part h hs'
    obtain ⟨L₁, h5, h6⟩ := collect_each (doc := doc) (applies := applies) (T := T) s (fun t ht => by
      obtain ⟨t', ht', hm⟩ := moreSels_mem hm t ht
      exact collect_more hF hknown h3 t' ht' t hm (known_single hk ht))
    refine ⟨_, ⟨L₁ :: Ls, .cons h5 h1, rfl⟩, ?_⟩
    rw [List.flatten_cons]
    exact covers_append (covers_mono h6 h4) h2

/-- **Answers to more contain answers to less.** -/
theorem more_answers (hF : MoreFrags frags frags')
    (hknown : ∀ x fd, AMap.get? frags x = some fd → SpreadsKnown frags fd.items) (k : Nat) :
    ∀ (T : String) (sets sets' : List (List Selection)) (L L' : List Wanted)
    (u : JVal), sizeOf u ≤ k → CollectMany doc frags applies T sets L →
    CollectMany doc frags' applies T sets' L' → Covers frags L L' →
    (∀ n, MergesWell doc frags' applies n T sets') →
    (∀ n, AnswersTo doc frags' applies scalars n T sets' u) →
    ∃ v, PartOf v u ∧ ∀ n, AnswersTo doc frags applies scalars n T sets v := by
  induction k with
  | zero =>
    intro T sets sets' L L' u hk _ _ _ _ h
    obtain ⟨fs, rfl⟩ := h 0
    simp at hk
  | succ k ih =>
    intro T sets sets' L L' u hk hL hL' hsub hm h
    obtain ⟨L'', fs, rfl, hL'', F⟩ := answers_fill h
    have e := collectMany_det hL' hL''
    subst e
    have hkeysub : ∀ key, key ∈ L.map Wanted.key → key ∈ L'.map Wanted.key := by
      intro key hkey
      obtain ⟨w, hw, rfl⟩ := List.mem_map.1 hkey
      obtain ⟨_, w', hw', e, _⟩ := hsub w hw
      exact List.mem_map.2 ⟨w', hw', e⟩
    let Good (key : String) (x : JVal) : Prop := ∃ r rest,
      L.filter (fun w' => decide (w'.key = key)) = r :: rest ∧
      ((r.name = "__typename" ∧ x = .str T) ∨ (r.name ≠ "__typename" ∧ ∃ kind t,
        fieldType doc T r.name = some (kind, t) ∧ Admits (fun y =>
          if CompositeKind kind then ∃ T' ∈ objectTypes doc (baseName t),
            ∀ n, AnswersTo doc frags applies scalars n T' ((r :: rest).map Wanted.items) y
          else LeafValue doc scalars kind (baseName t) y) t x))
    have hgood : ∀ key x, (key, x) ∈ fs → key ∈ L.map Wanted.key → ∃ x', PartOf x' x ∧ Good key x' := by
      intro key x hx hkey
      obtain ⟨w, hw, rfl⟩ := List.mem_map.1 hkey
      obtain ⟨_, w₁, hw₁, ew, enw, _⟩ := hsub w hw
      obtain ⟨x', hx', r', rest', hr', hv⟩ := F.values w₁ hw₁
      rw [ew] at hx' hr'
      have e := nodup_value F.nodup hx hx'
      subst e
      have hr'L : r' ∈ L' ∧ r'.key = w.key := by
        have : r' ∈ L'.filter (fun w' => decide (w'.key = w.key)) := by rw [hr']; simp
        simpa using List.mem_filter.1 this
      cases hr : L.filter (fun w' => decide (w'.key = w.key)) with
      | nil =>
        have : w ∈ L.filter (fun w' => decide (w'.key = w.key)) := List.mem_filter.2 ⟨hw, by simp⟩
        rw [hr] at this
        simp at this
      | cons r rest =>
        have hrL : r ∈ L ∧ r.key = w.key := by
          have : r ∈ L.filter (fun w' => decide (w'.key = w.key)) := by rw [hr]; simp
          simpa using List.mem_filter.1 this
        obtain ⟨m1, m2⟩ := mergesWell_step hm hL' hw₁
        rw [ew] at m1 m2
        have hn : r.name = r'.name := by
          obtain ⟨_, r₁, hr₁, e1, e2, _⟩ := hsub r hrL.1
          rw [← e2, m1 r₁ hr₁ (by rw [e1, hrL.2]), m1 r' hr'L.1 hr'L.2]
        have hwn : w₁.name = r'.name := (m1 r' hr'L.1 hr'L.2).symm
        rcases hv with hv | ⟨hne, kind, t, hf, ha⟩
        · exact ⟨x, .same x, r, rest, hr, .inl ⟨by rw [hn]; exact hv.1, hv.2⟩⟩
        · by_cases hkind : CompositeKind kind
          · simp only [if_pos hkind] at ha
            obtain ⟨x', p1, p2, _⟩ := admits_part (B' := fun y => ∃ T' ∈ objectTypes doc (baseName t),
              ∀ n, AnswersTo doc frags applies scalars n T' ((r :: rest).map Wanted.items) y) (by
                rintro y ⟨_, _, hy⟩ rfl
                obtain ⟨_, e⟩ := hy 0
                exact JVal.noConfusion e) t x ha (by
              rintro y hy ⟨T', hT', hans⟩
              obtain ⟨LL', _, _, hLL', _⟩ := answers_fill hans
              have hsub2 : ∀ s ∈ (r :: rest).map Wanted.items, SpreadsKnown frags s ∧
                  ∃ s' ∈ (r' :: rest').map Wanted.items, MoreSels s s' := by
                rw [← hr, ← hr']
                intro s hs
                obtain ⟨w', hw', rfl⟩ := List.mem_map.1 hs
                obtain ⟨h1, h2⟩ := List.mem_filter.1 hw'
                obtain ⟨h3, w₂, h4, h5, _, h6⟩ := hsub w' h1
                exact ⟨h3, _, List.mem_map.2 ⟨w₂, List.mem_filter.2 ⟨h4, by rw [h5]; exact h2⟩, rfl⟩, h6⟩
              obtain ⟨LL, hLL, hs2⟩ := collectMany_more hF hknown hLL' hsub2
              have hlt := sizeOf_value hx
              obtain ⟨y', q1, q2⟩ := ih T' _ _ LL LL' y (by omega) hLL hLL' hs2 (by
                rw [← hr']
                exact m2 kind t (by rw [hwn]; exact hf) T' hT') hans
              exact ⟨y', q1, T', hT', q2⟩)
            refine ⟨x', p1, r, rest, hr, .inr ⟨by rw [hn]; exact hne, kind, t, by rw [hn]; exact hf, ?_⟩⟩
            simpa only [if_pos hkind] using p2
          · simp only [if_neg hkind] at ha
            refine ⟨x, .same x, r, rest, hr, .inr ⟨by rw [hn]; exact hne, kind, t, by rw [hn]; exact hf, ?_⟩⟩
            simpa only [if_neg hkind] using ha
    have hpick : ∃ pick : List (String × JVal × JVal),
        pick.map Prod.fst = (fs.map Prod.fst).filter (fun key => decide (key ∈ L.map Wanted.key)) ∧
        ∀ t ∈ pick, (t.1, t.2.2) ∈ fs ∧ PartOf t.2.1 t.2.2 ∧ Good t.1 t.2.1 := by
      clear * - hgood
      induction fs with
      | nil => exact ⟨[], rfl, by simp⟩
      | cons f fs ih =>
        obtain ⟨pick, h1, h2⟩ := ih (fun key x hx => hgood key x (by simp [hx]))
        by_cases hf : f.1 ∈ L.map Wanted.key
        · obtain ⟨x', p1, p2⟩ := hgood f.1 f.2 (by simp) hf
          refine ⟨(f.1, x', f.2) :: pick, by simp only [List.map_cons, List.filter_cons, decide_eq_true hf, h1]; simp, ?_⟩
          intro t ht
          rcases List.mem_cons.1 ht with rfl | ht
          · exact ⟨by simp, p1, p2⟩
          · exact ⟨by simp [(h2 t ht).1], (h2 t ht).2⟩
        · refine ⟨pick, by simp only [List.map_cons, List.filter_cons, decide_eq_false hf, h1]; simp, ?_⟩
          intro t ht
          exact ⟨by simp [(h2 t ht).1], (h2 t ht).2⟩
    obtain ⟨pick, hp1, hp2⟩ := hpick
    have hkeys : (pick.map (fun t => (t.1, t.2.1))).map Prod.fst = pick.map Prod.fst := by
      rw [List.map_map]
      rfl
    refine ⟨.obj (pick.map (fun t => (t.1, t.2.1))), .obj pick rfl (fun t ht => (hp2 t ht).1)
      (fun t ht => (hp2 t ht).2.1), fun n => fill_answers hL ⟨?_, ?_, ?_⟩ n⟩
    · rw [hkeys, hp1]
      exact F.nodup.filter _
    · intro key
      rw [hkeys, hp1, List.mem_filter, F.keys]
      constructor
      · intro h; simpa using h.2
      · intro h
        exact ⟨hkeysub key h, by simpa using h⟩
    · intro w hw
      have hwk : w.key ∈ L.map Wanted.key := List.mem_map.2 ⟨w, hw, rfl⟩
      have : w.key ∈ pick.map Prod.fst := by
        rw [hp1, List.mem_filter, F.keys]
        exact ⟨hkeysub _ hwk, by simpa using hwk⟩
      obtain ⟨t, ht, e⟩ := List.mem_map.1 this
      obtain ⟨_, _, hg⟩ := hp2 t ht
      refine ⟨t.2.1, List.mem_map.2 ⟨t, ht, by rw [e]⟩, ?_⟩
      rw [e] at hg
      exact hg

/-- The whole response to a document that asks for more contains a response to the one that asks for less. -/
theorem more_document (hF : MoreFrags frags frags')
    (hknown : ∀ x fd, AMap.get? frags x = some fd → SpreadsKnown frags fd.items) {T : String}
    {items items' : List Selection} (hk : SpreadsKnown frags items) (hmore : MoreSels items items')
    (hm : ∀ n, MergesWell doc frags' applies n T [items']) {u : JVal}
    (h : ∀ n, AnswersTo doc frags' applies scalars n T [items'] u) :
    ∃ v, PartOf v u ∧ ∀ n, AnswersTo doc frags applies scalars n T [items] v := by
  obtain ⟨L', _, _, hL', _⟩ := answers_fill h
  obtain ⟨L, hL, hc⟩ := collectMany_more (sets := [items]) hF hknown hL' (by
    intro s hs
    rw [List.mem_singleton] at hs
    subst hs
    exact ⟨hk, items', by simp, hmore⟩)
  exact more_answers hF hknown _ T [items] [items'] L L' u (Nat.le_refl _) hL hL' hc hm h

end Qlc
