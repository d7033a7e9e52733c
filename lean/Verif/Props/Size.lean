import Verif.Spec.Size
import Verif.Props.Graphql
/-
C115: the generated text can be exponentially larger than the document.
-/
set_option autoImplicit false

namespace Qlc
open Spec Demo

/-! ### Below a field -/

theorem genFields_sub (ω : Hash) (cfg : TsConfig) (disp path : String) : ∀ (fields : List IRField) (g : List String)
    (ds ps g' : List String), genFields ω cfg disp path fields g = .ok ((ds, ps), g') →
    ∀ fld ∈ fields, ∀ sub, fld.type = .complex sub →
    ∃ at' g₁ defs g₂, genCollection ω (possOf ω cfg sub) at' g₁ = .ok (defs, g₂) ∧ defs.length ≤ ds.length := by
  intro fields
  induction fields with
  | nil => intro _ _ _ _ _ fld hm; cases hm
  | cons f rest ih =>
    intro g ds ps g' h fld hm sub hs
    obtain ⟨prop, doc, dep, last, mods, ty⟩ := f
    unfold genFields at h
    generalize ha : genFieldType ω cfg disp (path ++ "_" ++ prop) ty g = a at h
    rcases a with _ | ⟨⟨d1, flat⟩, g1⟩
    · cases h
    · simp only at h
      generalize hb : genFields ω cfg disp path rest g1 = b at h
      rcases b with _ | ⟨⟨d2, p2⟩, g2⟩
      · cases h
      · simp only [Except.ok.injEq, Prod.mk.injEq] at h
        obtain ⟨⟨h1, h2⟩, h3⟩ := h
        rcases List.mem_cons.1 hm with rfl | hm
        · simp only [IRField.type] at hs
          subst hs
          unfold genFieldType at ha
          generalize hc : genCollection ω (possOf ω cfg sub) (path ++ "_" ++ prop) g = c at ha
          rcases c with _ | ⟨d3, g3⟩
          · cases ha
          · simp only [Except.ok.injEq, Prod.mk.injEq] at ha
            refine ⟨_, _, d3, g3, hc, ?_⟩
            rw [← h1, ← ha.1.1, List.length_append]
            omega
        · obtain ⟨at', a1, a2, a3, a4, a5⟩ := ih _ _ _ _ hb fld hm sub hs
          refine ⟨at', a1, a2, a3, a4, ?_⟩
          rw [← h1, List.length_append]
          omega

theorem poss_gen_sub {ω : Hash} {cfg : TsConfig} {T : String} {fields : List IRField} {rest : List Complex} {p : Poss}
    {ps : List Poss} (hp : possOf ω cfg (.mk T fields :: rest) = p :: ps) {disp path : String} {g ds g' : List String}
    (h : p.gen disp path g = .ok (ds, g')) {fld : IRField} (hm : fld ∈ fields) {sub : List Complex}
    (hs : fld.type = .complex sub) :
    ∃ at' g₁ defs g₂, genCollection ω (possOf ω cfg sub) at' g₁ = .ok (defs, g₂) ∧ defs.length + 1 ≤ ds.length := by
  unfold possOf at hp
  injection hp with hp _
  subst hp
  simp only at h
  generalize ha : genFields ω cfg disp path fields g = a at h
  rcases a with _ | ⟨⟨d1, p1⟩, g1⟩
  · cases h
  · simp only [Except.ok.injEq, Prod.mk.injEq] at h
    obtain ⟨at', a1, a2, a3, a4, a5⟩ := genFields_sub _ _ _ _ _ _ _ _ _ ha fld hm sub hs
    refine ⟨at', a1, a2, a3, a4, ?_⟩
    rw [← h.1, List.length_append, List.length_singleton]
    omega

/-! ### Two alternatives that have nothing to be merged -/

theorem two_distinct {ω : Hash} {p q : Poss} {main : String} {g defs g' : List String}
    (hpq : ∃ a ∈ p.props, a ∉ q.props) (hqp : ∃ a ∈ q.props, a ∉ p.props)
    (h : genCollection ω [p, q] main g = .ok (defs, g')) :
    ∃ at₁ at₂ d₁ d₂ g₁, p.gen p.name at₁ g = .ok (d₁, g₁) ∧ (∃ g₂, q.gen q.name at₂ g₁ = .ok (d₂, g₂)) ∧
      d₁.length + d₂.length + 1 = defs.length := by
  obtain ⟨a, a1, a2⟩ := hpq
  obtain ⟨b, b1, b2⟩ := hqp
  have hrep : ((([p, q].filter (fun r => sameSet (commonProps ([p, q].map Poss.props)) r.props)).map Poss.name).foldl
      setInsert []) = [] := by
    have : [p, q].filter (fun r => sameSet (commonProps ([p, q].map Poss.props)) r.props) = [] := by
      rw [List.filter_eq_nil_iff]
      intro r hr
      simp only [sameSet, Bool.and_eq_true, List.all_eq_true, decide_eq_true_eq, not_and]
      intro _ hall
      rcases List.mem_cons.1 hr with rfl | hr
      · have := hall a a1
        simp [commonProps, a2] at this
      · rcases List.mem_cons.1 hr with rfl | hr
        · have := hall b b1
          simp [commonProps, b2] at this
        · cases hr
    rw [this]
    rfl
  unfold genCollection at h
  simp only [hrep] at h
  rw [if_neg (by simp)] at h
  unfold genDistinct at h
  simp only [List.not_mem_nil, if_false, List.nil_append] at h
  generalize ha : p.gen p.name (main ++ "_" ++ p.name) g = r at h
  rcases r with _ | ⟨d₁, g₁⟩
  · cases h
  · simp only at h
    unfold genDistinct at h
    simp only [List.not_mem_nil, if_false] at h
    generalize hb : q.gen q.name (main ++ "_" ++ q.name) g₁ = r at h
    rcases r with _ | ⟨d₂, g₂⟩
    · cases h
    · simp only [genDistinct] at h
      have hnone : ([p, q].filter (fun r => decide (r.name ∈ ([] : List String)))).getLast? = none := by simp
      simp only [List.filter_cons, decide_false, Bool.false_eq_true, if_false, List.filter_nil,
        List.getLast?_nil, Except.ok.injEq, Prod.mk.injEq] at h
      refine ⟨_, _, d₁, d₂, g₁, ha, ⟨g₂, hb⟩, ?_⟩
      rw [← h.1]
      simp only [List.length_append, List.length_singleton]

/-! ### The collected fields of a level -/

theorem big_loads : Schema.ofJson bigJson = .ok bigSchema := loads_of_check (by decide +kernel)

theorem big_valid : ValidDoc bigJson := validDocB_sound (by decide +kernel)

/-- The field of object type `A` alone. -/
def bigX : SField := ⟨"x", none, ⟨"ID", .nullable, .scalar .id, []⟩, false⟩
/-- The field of object type `B` alone. -/
def bigY : SField := ⟨"y", none, ⟨"ID", .nullable, .scalar .id, []⟩, false⟩
/-- The field of both. -/
def bigNext : SField := ⟨"next", none, ⟨"I", .nullable, .interface, []⟩, false⟩
/-- The field of the query type. -/
def bigNode : SField := ⟨"node", none, ⟨"I", .nullable, .interface, []⟩, false⟩

theorem big_x : fieldOf bigSchema "A" "x" = some bigX := by decide +kernel
theorem big_y : fieldOf bigSchema "B" "y" = some bigY := by decide +kernel
theorem big_next : fieldOf bigSchema "I" "next" = some bigNext := by decide +kernel
theorem big_node : fieldOf bigSchema "Query" "node" = some bigNode := by decide +kernel
theorem big_I : possibleTypes bigSchema "I" = ["A", "B"] := by decide +kernel
theorem big_A : possibleTypes bigSchema "A" = ["A"] := by decide +kernel
theorem big_B : possibleTypes bigSchema "B" = ["B"] := by decide +kernel
theorem big_Query : possibleTypes bigSchema "Query" = ["Query"] := by decide +kernel

/-- What is below `next`. -/
def below : Nat → List Contribution
  | 0 => []
  | n + 1 => [⟨"next", bigNext, bigNest n⟩]

theorem coll_A (n : Nat) : Coll bigSchema [] "A" "I" (bigNest n) (⟨"x", bigX, []⟩ :: below n) := by
  have hx : Coll bigSchema [] "A" "A" [leaf 2 9 "x"] [⟨"x", bigX, []⟩] := Coll.field big_x Coll.nil
  have h : ∀ rest L, Coll bigSchema [] "A" "I" rest L → Coll bigSchema [] "A" "I"
      (.inline ⟨2, 1⟩ (some "A") [] [leaf 2 9 "x"] :: .inline ⟨3, 1⟩ (some "B") [] [leaf 3 9 "y"] :: rest)
      (⟨"x", bigX, []⟩ :: L) := fun rest L hr =>
    Coll.inlineIn (L₁ := [⟨"x", bigX, []⟩]) (by rw [big_A]; simp) hx (Coll.inlineOut (by rw [big_B]; decide) hr)
  cases n with
  | zero => exact h _ _ Coll.nil
  | succ n => exact h _ _ (Coll.field (al := none) big_next Coll.nil)

theorem coll_B (n : Nat) : Coll bigSchema [] "B" "I" (bigNest n) (⟨"y", bigY, []⟩ :: below n) := by
  have hx : Coll bigSchema [] "B" "B" [leaf 3 9 "y"] [⟨"y", bigY, []⟩] := Coll.field big_y Coll.nil
  have h : ∀ rest L, Coll bigSchema [] "B" "I" rest L → Coll bigSchema [] "B" "I"
      (.inline ⟨2, 1⟩ (some "A") [] [leaf 2 9 "x"] :: .inline ⟨3, 1⟩ (some "B") [] [leaf 3 9 "y"] :: rest)
      (⟨"y", bigY, []⟩ :: L) := fun rest L hr =>
    Coll.inlineOut (by rw [big_A]; decide) (Coll.inlineIn (L₁ := [⟨"y", bigY, []⟩]) (by rw [big_B]; simp) hx hr)
  cases n with
  | zero => exact h _ _ Coll.nil
  | succ n => exact h _ _ (Coll.field (al := none) big_next Coll.nil)

theorem collMany_one {schema : Schema} {frags : Frags} {T P : String} {items : List Selection} {L : List Contribution} :
    CollMany schema frags T P [items] L ↔ Coll schema frags T P items L := by
  constructor
  · rintro ⟨Ls, h1, rfl⟩
    cases h1 with
    | cons h h' =>
      cases h'
      simpa using h
  · intro h
    exact ⟨[L], .cons h .nil, by simp⟩

/-! ### The properties of an alternative -/

theorem fields_props {D : String → List (List Selection) → List Complex → Prop} {L : List Contribution}
    {fields : List IRField} (h : FieldsAre D L fields) (k : String) :
    k ∈ fieldIds fields ↔ ∃ c ∈ L, c.key = k := by
  obtain ⟨h0, slots, h1, h2, h3⟩ := h
  clear h0 h1
  have h4 : List.Forall₂ (fun s k => k = s.1) slots (fieldIds fields) := by
    unfold fieldIds
    rw [List.forall₂_map_right_iff]
    refine h3.imp ?_
    rintro s fld ⟨c, rest, e, hk, _⟩
    have : c ∈ sameSlot L s.1 s.2 := by rw [e]; simp
    rw [hk]
    simp only [sameSlot, List.mem_filter, decide_eq_true_eq] at this
    exact this.2.1
  have h5 : fieldIds fields = slots.map Prod.fst := by
    clear h2 h3
    generalize fieldIds fields = ids at h4
    induction h4 with
    | nil => rfl
    | cons h _ ih => rw [List.map_cons, h, ih]
  rw [h5, List.mem_map]
  constructor
  · rintro ⟨s, hs, rfl⟩
    obtain ⟨c, hc, e⟩ := (h2 s).1 hs
    exact ⟨c, hc, by rw [← e]⟩
  · rintro ⟨c, hc, rfl⟩
    exact ⟨_, (h2 _).2 ⟨c, hc, rfl⟩, rfl⟩

theorem fields_complex {D : String → List (List Selection) → List Complex → Prop} {L : List Contribution}
    {fields : List IRField} (h : FieldsAre D L fields) {c : Contribution}
    (hs : sameSlot L c.key c.field.type.name = [c]) (hc : c.field.type.definition = .interface) :
    ∃ fld ∈ fields, ∃ sub, fld.type = .complex sub ∧ D c.field.type.name [c.items] sub := by
  obtain ⟨h0, slots, h1, h2, h3⟩ := h
  clear h0 h1
  have hm : c ∈ L := by
    have : c ∈ sameSlot L c.key c.field.type.name := by rw [hs]; simp
    exact (List.mem_filter.1 this).1
  obtain ⟨fld, hf, hfi⟩ : ∃ fld ∈ fields, FieldIs D (sameSlot L c.key c.field.type.name) fld := by
    have hin := (h2 _).2 ⟨c, hm, rfl⟩
    clear h2
    generalize hsl : (c.key, c.field.type.name) = s at hin
    have e1 : c.key = s.1 := by rw [← hsl]
    have e2 : c.field.type.name = s.2 := by rw [← hsl]
    rw [e1, e2]
    clear hsl e1 e2
    induction h3 with
    | nil => cases hin
    | cons h _ ih =>
      rcases List.mem_cons.1 hin with rfl | hin
      · exact ⟨_, by simp, h⟩
      · obtain ⟨fld, a, b⟩ := ih hin
        exact ⟨fld, by simp [a], b⟩
  rw [hs] at hfi
  obtain ⟨c', rest, e, _, _, _, _, _, ht⟩ := hfi
  injection e with e1 e2
  subst e1 e2
  refine ⟨fld, hf, ?_⟩
  cases hty : fld.type with
  | complex sub => rw [hty] at ht; exact ⟨sub, rfl, ht.2⟩
  | enum n => rw [hty] at ht; have := ht.1; rw [hc] at this; cases this
  | scalar s => rw [hty] at ht; have : c.field.type.definition = _ := ht; rw [hc] at this; cases this
  | typeName => rw [hty] at ht; have : c.field.type.definition = _ := ht; rw [hc] at this; cases this

/-! ### A level has at least twice as many declarations as the next -/

theorem two_sorted {l : List Complex} {a b : String} (hab : a < b) (h1 : (l.map Complex.name).Pairwise (· < ·))
    (h2 : ∀ T, T ∈ l.map Complex.name ↔ T ∈ [a, b]) : ∃ fa fb, l = [.mk a fa, .mk b fb] := by
  have : l.map Complex.name = [a, b] := by
    apply strictSorted_ext h1 (by simpa using hab)
    exact h2
  match l, this with
  | [.mk n fa, .mk m fb], this =>
    simp only [List.map_cons, List.map_nil, Complex.name, List.cons.injEq, and_true] at this
    exact ⟨fa, fb, by rw [this.1, this.2]⟩

theorem level_props {k m : Nat} {fa fb : List IRField} {ps : List Complex}
    (h3 : ∀ T fields, Complex.mk T fields ∈ ps → ∃ L, CollMany bigSchema [] T "I" [bigNest k] L ∧
      FieldsAre (TreeIs bigSchema (CollMany bigSchema []) m) L fields)
    (ha : .mk "A" fa ∈ ps) (hb : .mk "B" fb ∈ ps) :
    FieldsAre (TreeIs bigSchema (CollMany bigSchema []) m) (⟨"x", bigX, []⟩ :: below k) fa ∧
    FieldsAre (TreeIs bigSchema (CollMany bigSchema []) m) (⟨"y", bigY, []⟩ :: below k) fb ∧
    (∃ a ∈ fieldIds fa, a ∉ fieldIds fb) ∧ ∃ a ∈ fieldIds fb, a ∉ fieldIds fa := by
  obtain ⟨La, a1, a2⟩ := h3 _ _ ha
  obtain ⟨Lb, b1, b2⟩ := h3 _ _ hb
  rw [collMany_one] at a1 b1
  have ea := coll_functional a1 _ (coll_A k)
  have eb := coll_functional b1 _ (coll_B k)
  subst ea eb
  refine ⟨a2, b2, ⟨"x", (fields_props a2 _).2 ⟨_, List.mem_cons_self, rfl⟩, ?_⟩,
    "y", (fields_props b2 _).2 ⟨_, List.mem_cons_self, rfl⟩, ?_⟩ <;>
  · first | rw [fields_props b2] | rw [fields_props a2]
    cases k <;> simp [below]

theorem level (ω : Hash) (cfg : TsConfig) : ∀ (n : Nat) (ps : List Complex) (main : String) (g defs g' : List String),
    TreeIs bigSchema (CollMany bigSchema []) (n + 1) "I" [bigNest n] ps →
    genCollection ω (possOf ω cfg ps) main g = .ok (defs, g') → 2 ^ n ≤ defs.length := by
  intro n
  induction n with
  | zero =>
    rintro ps main g defs g' ⟨h1, h2, h3⟩ h
    rw [big_I] at h2
    obtain ⟨fa, fb, rfl⟩ := two_sorted (by decide) h1 h2
    obtain ⟨_, _, p1, p2⟩ := level_props h3 (fa := fa) (fb := fb) (by simp) (by simp)
    simp only [possOf] at h
    obtain ⟨_, _, d1, d2, g1, _, _, e⟩ := two_distinct p1 p2 h
    omega
  | succ n ih =>
    rintro ps main g defs g' ⟨h1, h2, h3⟩ h
    rw [big_I] at h2
    obtain ⟨fa, fb, rfl⟩ := two_sorted (by decide) h1 h2
    obtain ⟨f1, f2, p1, p2⟩ := level_props h3 (fa := fa) (fb := fb) (by simp) (by simp)
    obtain ⟨fld1, m1, sub1, t1, D1⟩ := fields_complex f1 (c := ⟨"next", bigNext, bigNest n⟩) (by rfl) rfl
    obtain ⟨fld2, m2, sub2, t2, D2⟩ := fields_complex f2 (c := ⟨"next", bigNext, bigNest n⟩) (by rfl) rfl
    obtain ⟨p, rest, hp⟩ : ∃ p rest, possOf ω cfg [.mk "A" fa, .mk "B" fb] = p :: rest := ⟨_, _, by simp only [possOf]; rfl⟩
    obtain ⟨q, rest', hq⟩ : ∃ q rest, possOf ω cfg [.mk "B" fb] = q :: rest := ⟨_, _, by simp only [possOf]; rfl⟩
    have hall : possOf ω cfg [.mk "A" fa, .mk "B" fb] = [p, q] ∧ p.props = fieldIds fa ∧ q.props = fieldIds fb := by
      simp only [possOf, List.cons.injEq] at hp hq ⊢
      refine ⟨⟨hp.1, hq.1, trivial⟩, ?_, ?_⟩
      · rw [← hp.1]
      · rw [← hq.1]
    rw [hall.1] at h
    obtain ⟨_, _, d1, d2, g1, r1, ⟨g2, r2⟩, e⟩ := two_distinct (by rw [hall.2.1, hall.2.2]; exact p1)
      (by rw [hall.2.1, hall.2.2]; exact p2) h
    obtain ⟨_, _, e1, _, s1, l1⟩ := poss_gen_sub hp r1 m1 t1
    obtain ⟨_, _, e2, _, s2, l2⟩ := poss_gen_sub hq r2 m2 t2
    have b1 := ih _ _ _ _ _ D1 s1
    have b2 := ih _ _ _ _ _ D2 s2
    rw [Nat.pow_succ]
    omega

theorem joinWith_length : ∀ ls : List String, ls.length ≤ (joinWith "\n\n" ls).length + 1
  | [] => by simp
  | [_] => by simp
  | x :: y :: rest => by
    have := joinWith_length (y :: rest)
    have e : "\n\n".length = 2 := by decide
    simp only [joinWith, String.length_append, List.length_cons] at this ⊢
    omega

theorem contents_length {ω : Hash} {op : Operation} {cfg : TsConfig} {schema : Schema} {c : Compile}
    (h : compileIr ω op cfg schema = .ok c) : ∃ defs g, genCollection ω (possOf ω cfg op.collection) op.name [] =
      .ok (defs, g) ∧ defs.length ≤ c.contents.length := by
  unfold compileIr at h
  generalize genCollection ω (possOf ω cfg op.collection) op.name [] = r at h
  rcases r with _ | ⟨defs, g⟩
  · cases h
  · refine ⟨defs, g, rfl, ?_⟩
    simp only at h
    generalize compileVariablesTypeDefinition ω cfg schema op g = r at h
    rcases r with _ | ⟨v, g'⟩
    · cases h
    · injection h with h
      rw [← h]
      have := joinWith_length defs
      have e : 0 < header.length := by decide
      simp only [String.length_append]
      omega

/-! ### The documents -/

theorem nest_size : ∀ n, selectionsSize (bigNest n) = 5 * n + 4
  | 0 => by rfl
  | n + 1 => by
    have := nest_size n
    simp only [bigNest, selectionsSize, selectionSize, leaf, this]
    omega

theorem nest_ne : ∀ n, bigNest n ≠ []
  | 0 => by simp [bigNest]
  | n + 1 => by simp [bigNest]

theorem nest_gql : ∀ n, ∀ s ∈ bigNest n, GqlSelection bigJson [] "I" s := by
  have ha : GqlSelection bigJson [] "I" (.inline ⟨2, 1⟩ (some "A") [] [leaf 2 9 "x"]) := by
    refine .inline ⟨"OBJECT", by decide +kernel, .inl rfl⟩ ⟨"A", by decide +kernel, by decide +kernel⟩ (by simp) ?_
    intro s hs
    rw [List.mem_singleton.1 hs]
    exact .leaf (kind := "SCALAR") (t := .named "ID") (by decide +kernel) (by unfold CompositeKind; decide)
  have hb : GqlSelection bigJson [] "I" (.inline ⟨3, 1⟩ (some "B") [] [leaf 3 9 "y"]) := by
    refine .inline ⟨"OBJECT", by decide +kernel, .inl rfl⟩ ⟨"B", by decide +kernel, by decide +kernel⟩ (by simp) ?_
    intro s hs
    rw [List.mem_singleton.1 hs]
    exact .leaf (kind := "SCALAR") (t := .named "ID") (by decide +kernel) (by unfold CompositeKind; decide)
  intro n
  induction n with
  | zero =>
    intro s hs
    simp only [bigNest, List.mem_cons, List.not_mem_nil, or_false] at hs
    rcases hs with rfl | rfl
    · exact ha
    · exact hb
  | succ n ih =>
    intro s hs
    simp only [bigNest, List.mem_cons, List.not_mem_nil, or_false] at hs
    rcases hs with rfl | rfl | rfl
    · exact ha
    · exact hb
    · exact .nested (kind := "INTERFACE") (t := .named "I") (by decide +kernel) (by unfold CompositeKind; decide)
        (nest_ne n) ih

theorem nest_plain : ∀ n, plainSelsB (n + 3) (bigNest n) = true
  | 0 => by decide +kernel
  | n + 1 => by
    have := nest_plain n
    have key : ∀ m, plainSelsB m (bigNest n) = true → plainSelsB m [leaf 2 9 "x"] = true →
        plainSelsB m [leaf 3 9 "y"] = true → plainSelsB (m + 1) (bigNest (n + 1)) = true := by
      intro m h1 h2 h3
      simp [bigNest, plainSelsB, h1, h2, h3]
    exact key (n + 3) this (by simp [plainSelsB, leaf]) (by simp [plainSelsB, leaf])

/-- The query is one that GraphQL accepts and that is supported. -/
theorem big_gql (n : Nat) : GqlValid bigJson [] (bigQuery n) ∧ Supported bigJson (bigQuery n) := by
  have hplain : plainSelsB (n + 4) (itemsOf (bigQuery n)) = true := by
    have key : ∀ m, plainSelsB m (bigNest n) = true → plainSelsB (m + 1) (itemsOf (bigQuery n)) = true := by
      intro m h
      simp [itemsOf, bigQuery, plainSelsB, h]
    exact key _ (nest_plain n)
  have hcheck : (bigJson.types.map JType.name).all
      (fun P => !compositeB bigJson P || !(objectTypes bigJson P).isEmpty) = true := by decide +kernel
  refine ⟨⟨⟨"Query", rfl, ⟨"OBJECT", by decide +kernel, .inl rfl⟩, ?_⟩, ?_, ?_, ?_, ?_⟩, ?_, rfl, ?_, ?_, ?_, ?_⟩
  · intro s hs
    rw [List.mem_singleton.1 hs]
    exact .nested (kind := "INTERFACE") (t := .named "I") (by decide +kernel) (by unfold CompositeKind; decide)
      (nest_ne n) (nest_gql n)
  · intro name fd h
    simp [AMap.get?] at h
  · intro name h
    obtain ⟨_, ⟨fd, h, _⟩, _⟩ := Relation.TransGen.head'_iff.1 h
    simp [AMap.get?] at h
  · simp [varsOf, bigQuery]
  · intro v hv
    simp [varsOf, bigQuery] at hv
  · intro pos items h
    exact Definition.noConfusion h
  · intro pos dirs items hw
    have := plainSelsB_sound hw _ hplain
    simp [PlainSel] at this
  · intro pos al name args dirs items hw
    exact plainSelsB_sound hw _ hplain
  · intro v hv
    simp [varsOf, bigQuery] at hv
  · intro P hP
    have hm : P ∈ bigJson.types.map JType.name := by
      obtain ⟨k, hk, _⟩ := hP
      exact kindNamed_mem hk
    have := (List.all_eq_true.1 hcheck) P hm
    rw [compositeB_iff.2 hP] at this
    simpa using this

/-- **C115.** There is a schema and for every `n` a query, which GraphQL accepts, with `5 * n + 5` selections and
without fragment spreads, for which the program generates a text of at least `2 ^ n` characters. -/
theorem C115_output_exponential : ValidDoc bigJson ∧ Schema.ofJson bigJson = .ok bigSchema ∧
    ∀ n, selectionsSize (itemsOf (bigQuery n)) = 5 * n + 5 ∧ GqlValid bigJson [] (bigQuery n) ∧
      ∃ enough, ∀ fuel ≥ enough, ∀ (ω : Hash) (showDep : Bool) (cfg : TsConfig), ∃ op ws c,
        Operation.compile ω fuel ⟨bigSchema, showDep, []⟩ (bigQuery n) = some (.ok op, ws) ∧
        compileIr ω op cfg bigSchema = .ok c ∧ 2 ^ n ≤ c.contents.length := by
  refine ⟨big_valid, big_loads, fun n => ⟨?_, (big_gql n).1, ?_⟩⟩
  · show selectionSize (.field ⟨1, 11⟩ none "node" [] [] (bigNest n)) + 0 = _
    simp only [selectionSize, nest_size]
    omega
  · obtain ⟨enough, he⟩ := C110_accepts_graphql big_valid big_loads (bigQuery n) (big_gql n).1 (big_gql n).2
    refine ⟨enough, fun fuel hf ω showDep cfg => ?_⟩
    obtain ⟨op, ws, c, h1, h2⟩ := he fuel hf ω showDep cfg
    refine ⟨op, ws, c, h1, h2, ?_⟩
    obtain ⟨defs, g, d1, d2⟩ := contents_length h2
    refine Nat.le_trans ?_ d2
    obtain ⟨t1, t2, t3⟩ := C10_generated_tree ω fuel showDep (loaded_consistent big_valid big_loads)
      (frags_nil_valid _) (bigQuery n) op ws "Query" rfl h1 (n + 2)
    rw [big_Query] at t2
    have names : op.collection.map Complex.name = ["Query"] := strictSorted_ext t1 (by simp) t2
    obtain ⟨fs, hfs⟩ : ∃ fs, op.collection = [.mk "Query" fs] := by
      match hc : op.collection, names with
      | [.mk m fs], names =>
        simp only [List.map_cons, List.map_nil, Complex.name, List.cons.injEq, and_true] at names
        exact ⟨fs, by rw [names]⟩
    rw [hfs] at t3 d1
    obtain ⟨L, c1, c2⟩ := t3 "Query" fs (by simp)
    rw [collMany_one] at c1
    have eL := coll_functional c1 [⟨"node", bigNode, bigNest n⟩] (Coll.field (al := none) big_node Coll.nil)
    subst eL
    obtain ⟨fld, m1, sub, t4, D⟩ := fields_complex c2 (c := ⟨"node", bigNode, bigNest n⟩) (by rfl) rfl
    obtain ⟨p, rest, hp⟩ : ∃ p rest, possOf ω cfg [.mk "Query" fs] = p :: rest := ⟨_, _, by simp only [possOf]; rfl⟩
    have hrest : rest = [] := by simp only [possOf, List.cons.injEq] at hp; exact hp.2.symm
    subst hrest
    rw [hp] at d1
    obtain ⟨_, _, e1, _, s1, l1⟩ := poss_gen_sub hp (show p.gen p.name op.name [] = .ok (defs, g) from d1) m1 t4
    have := level ω cfg n sub _ _ _ _ D s1
    omega

/-! ### Documents without fragments -/

section
variable {schema : Schema} {frags : Frags}

theorem slots_sum (v : Contribution → Nat) (slots : List (String × String)) (hn : slots.Nodup) :
    ∀ L : List Contribution, (slots.map (fun s => ((sameSlot L s.1 s.2).map v).sum)).sum ≤ (L.map v).sum := by
  intro L
  induction L with
  | nil =>
    have : slots.map (fun s => ((sameSlot [] s.1 s.2).map v).sum) = slots.map (fun _ => 0) := rfl
    rw [this]
    induction slots with
    | nil => simp
    | cons s rest ih => simpa using ih (List.nodup_cons.1 hn).2 rfl
  | cons c L ih =>
    have hone : ∀ slots : List (String × String), slots.Nodup →
        (slots.map (fun s => if (c.key, c.field.type.name) = s then v c else 0)).sum ≤ v c := by
      intro slots hn
      induction slots with
      | nil => simp
      | cons s rest ih' =>
        obtain ⟨h1, h2⟩ := List.nodup_cons.1 hn
        rw [List.map_cons, List.sum_cons]
        by_cases e : (c.key, c.field.type.name) = s
        · have : rest.map (fun s => if (c.key, c.field.type.name) = s then v c else 0) = rest.map (fun _ => 0) := by
            apply List.map_congr_left
            intro s' hs'
            rw [if_neg]
            intro e'
            exact h1 (by rw [← e, e']; exact hs')
          rw [this, if_pos e]
          have hz : ∀ r : List (String × String), (r.map (fun _ => 0)).sum = 0 := by
            intro r
            induction r with
            | nil => rfl
            | cons _ _ ih => simpa using ih
          rw [hz]
          omega
        · rw [if_neg e]
          have := ih' h2
          omega
    have hsplit : ∀ s : String × String, ((sameSlot (c :: L) s.1 s.2).map v).sum =
        (if (c.key, c.field.type.name) = s then v c else 0) + ((sameSlot L s.1 s.2).map v).sum := by
      rintro ⟨k, tn⟩
      unfold sameSlot
      rw [List.filter_cons]
      by_cases e : c.key = k ∧ c.field.type.name = tn
      · rw [if_pos (by simpa using e), if_pos (by rw [e.1, e.2])]
        simp
      · rw [if_neg (by simpa using e), if_neg (fun e' => e (by simpa using e'))]
        simp
    have hadd : ∀ (f g : String × String → Nat) (r : List (String × String)),
        (r.map (fun s => f s + g s)).sum = (r.map f).sum + (r.map g).sum := by
      intro f g r
      induction r with
      | nil => rfl
      | cons s r ih => simp only [List.map_cons, List.sum_cons, ih]; omega
    have : slots.map (fun s => ((sameSlot (c :: L) s.1 s.2).map v).sum) =
        slots.map (fun s => (if (c.key, c.field.type.name) = s then v c else 0) + ((sameSlot L s.1 s.2).map v).sum) :=
      List.map_congr_left (fun s _ => hsplit s)
    rw [this, hadd, List.map_cons, List.sum_cons]
    have := hone slots hn
    omega

theorem coll_size {T P : String} {items : List Selection} (h : OnlyFields items) : ∀ {L : List Contribution},
    Coll schema frags T P items L → (L.map (fun c => 1 + selectionsSize c.items)).sum = selectionsSize items := by
  induction h with
  | nil => intro L hc; cases hc; rfl
  | cons _ _ _ ih =>
    intro L hc
    cases hc with
    | field _ hrest =>
      have := ih hrest
      simp only [List.map_cons, List.sum_cons, selectionsSize, selectionSize, this]

theorem collMany_size {T P : String} {sets : List (List Selection)} (h : ∀ s ∈ sets, OnlyFields s)
    {L : List Contribution} (hc : CollMany schema frags T P sets L) :
    (L.map (fun c => 1 + selectionsSize c.items)).sum = (sets.map selectionsSize).sum := by
  obtain ⟨Ls, hF, rfl⟩ := hc
  induction hF with
  | nil => rfl
  | cons a _ ih =>
    have h1 := coll_size (h _ (by simp)) a
    have h2 := ih (fun s hs => h s (by simp [hs]))
    simp only [List.flatten_cons, List.map_append, List.sum_append, List.map_cons, List.sum_cons, h1, h2]

theorem all_merged {ps : List Complex} (hn : (ps.map Complex.name).Nodup)
    (hsame : ∀ c ∈ ps, ∀ d ∈ ps, ∀ k, k ∈ fieldIds c.fields → k ∈ fieldIds d.fields) :
    (mergedAlts ps).length = ps.length := by
  have hsame' : ∀ c ∈ ps, sameSet (commonProps (ps.map (fun c => fieldIds c.fields))) (fieldIds c.fields) = true := by
    intro c hc
    cases ps with
    | nil => cases hc
    | cons d rest =>
      have e : commonProps ((d :: rest).map (fun c => fieldIds c.fields)) = fieldIds d.fields := by
        simp only [List.map_cons, commonProps]
        rw [List.filter_eq_self]
        intro k hk
        simp only [List.all_map, List.all_eq_true, Function.comp, decide_eq_true_eq]
        intro x hx
        exact hsame d (by simp) x (by simp [hx]) k hk
      rw [e]
      simp only [sameSet, Bool.and_eq_true, List.all_eq_true, decide_eq_true_eq]
      exact ⟨fun k hk => hsame d (by simp) c hc k hk, fun k hk => hsame c hc d (by simp) k hk⟩
  have : mergedAlts ps = (ps.map Complex.name).foldl setInsert [] := by
    unfold mergedAlts repNames
    congr 1
    rw [List.filter_eq_self.2]
    · simp
    · intro p hp
      obtain ⟨c, hc, rfl⟩ := List.mem_map.1 hp
      have := hsame' c hc
      rw [List.map_map]
      exact this
  rw [this, foldl_setInsert_of_nodup _ [] (by simpa using hn)]
  simp

theorem obj_small (cfg : TsConfig) {n : Nat} {L : List Contribution} {fields : List IRField} {total : Nat}
    (hF : FieldsAre (TreeIs schema (CollMany schema frags) n) L fields)
    (hL : (L.map (fun c => 1 + selectionsSize c.items)).sum = total) (hof : ∀ c ∈ L, OnlyFields c.items)
    (ih : ∀ (P' : String) (sets' : List (List Selection)) (sub : List Complex) (main : String),
      (∀ s ∈ sets', OnlyFields s) → (sets'.map selectionsSize).sum + 1 ≤ total →
      TreeIs schema (CollMany schema frags) n P' sets' sub →
      (collDecls cfg sub main).length ≤ 1 + (sets'.map selectionsSize).sum) (lits : List String) (path : String) :
    (objDecls cfg lits path fields).length ≤ 1 + total := by
  obtain ⟨h0, slots, hn, h2, h3⟩ := hF
  clear h0 h2
  have hsum := slots_sum (fun c => 1 + selectionsSize c.items) slots hn L
  rw [hL] at hsum
  have hcs : ∀ cs : List Contribution, (cs.map (fun c => 1 + selectionsSize c.items)).sum =
      cs.length + ((cs.map Contribution.items).map selectionsSize).sum := by
    intro cs
    induction cs with
    | nil => rfl
    | cons c cs ih => simp only [List.map_cons, List.sum_cons, List.length_cons, ih]; omega
  have hfield : List.Forall₂ (fun (s : String × String) (f : IRField) =>
      (aType cfg lits (path ++ "_" ++ f.propName) f.type).1.length ≤
        ((sameSlot L s.1 s.2).map (fun c => 1 + selectionsSize c.items)).sum) slots fields := by
    refine h3.imp ?_
    rintro s fld ⟨c, rest, e, _, _, _, _, _, ht⟩
    cases hty : fld.type with
    | complex sub =>
      rw [hty] at ht
      have hone := slots_sum (fun c => 1 + selectionsSize c.items) [s] (by simp) L
      simp only [List.map_cons, List.map_nil, List.sum_cons, List.sum_nil, Nat.add_zero] at hone
      rw [hL, hcs] at hone
      rw [hcs]
      have hlen : 1 ≤ (sameSlot L s.1 s.2).length := by rw [e]; simp
      have := ih _ _ sub (path ++ "_" ++ fld.propName) (by
        intro x hx
        obtain ⟨c', hc', rfl⟩ := List.mem_map.1 hx
        exact hof c' (List.mem_filter.1 hc').1) (by omega) ht.2
      unfold aType
      unfold collDecls at this
      simp only
      omega
    | enum _ => unfold aType; simp
    | scalar _ => unfold aType; simp
    | typeName => unfold aType; simp
  have hall : (aFields cfg lits path fields).1.length ≤
      (slots.map (fun s => ((sameSlot L s.1 s.2).map (fun c => 1 + selectionsSize c.items)).sum)).sum := by
    rw [aFields_decls]
    clear h3 hsum hn
    induction hfield with
    | nil => simp
    | cons h _ ih' =>
      simp only [List.flatMap_cons, List.length_append, List.map_cons, List.sum_cons]
      omega
  unfold objDecls
  rw [List.length_append, List.length_singleton]
  omega

theorem coll_small (cfg : TsConfig) : ∀ (n : Nat) (P : String) (sets : List (List Selection)) (ps : List Complex)
    (main : String), (∀ s ∈ sets, OnlyFields s) → (sets.map selectionsSize).sum ≤ n →
    TreeIs schema (CollMany schema frags) (n + 1) P sets ps →
    (collDecls cfg ps main).length ≤ 1 + (sets.map selectionsSize).sum := by
  have body : ∀ (n : Nat) (P : String) (sets : List (List Selection)) (ps : List Complex)
      (main : String), (∀ s ∈ sets, OnlyFields s) → TreeIs schema (CollMany schema frags) (n + 1) P sets ps →
      (∀ (P' : String) (sets' : List (List Selection)) (sub : List Complex) (main : String),
        (∀ s ∈ sets', OnlyFields s) → (sets'.map selectionsSize).sum + 1 ≤ (sets.map selectionsSize).sum →
        TreeIs schema (CollMany schema frags) n P' sets' sub →
        (collDecls cfg sub main).length ≤ 1 + (sets'.map selectionsSize).sum) →
      (collDecls cfg ps main).length ≤ 1 + (sets.map selectionsSize).sum := by
    rintro n P sets ps main hof ⟨h1, h2, h3⟩ ih
    have obj : ∀ c ∈ ps, ∀ lits path, (objDecls cfg lits path c.fields).length ≤ 1 + (sets.map selectionsSize).sum := by
      rintro ⟨T, fields⟩ hc lits path
      obtain ⟨L, hL, hF⟩ := h3 T fields hc
      exact obj_small cfg hF (collMany_size hof hL) (collMany_onlyFields hof hL).2 ih lits path
    match ps, obj, h1, h3 with
    | [], _, _, _ => simp [collDecls, aPoss, aColl]
    | [.mk T fields], obj, _, _ =>
      rw [collDecls_one]
      exact obj (.mk T fields) List.mem_cons_self _ _
    | c :: d :: rest, obj, h1, h3 =>
      rw [collDecls_many, if_pos]
      · exact obj c (by simp) _ _
      · symm
        apply all_merged
        · exact h1.imp (fun h => by intro e; rw [e] at h; exact absurd h (String.lt_irrefl _))
        · rintro ⟨T, f⟩ hc ⟨T', f'⟩ hd k hk
          obtain ⟨L, hL, hF⟩ := h3 T f hc
          obtain ⟨L', hL', hF'⟩ := h3 T' f' hd
          have e := collMany_functional _ _ _ _ _ ((collMany_onlyFields hof hL).1 T') hL'
          subst e
          exact (fields_props hF' k).2 ((fields_props hF k).1 hk)
  intro n
  induction n with
  | zero =>
    intro P sets ps main hof hle ht
    exact body 0 P sets ps main hof ht (fun _ _ _ _ _ h _ => absurd h (by omega))
  | succ n ih =>
    intro P sets ps main hof hle ht
    exact body (n + 1) P sets ps main hof ht (fun P' sets' sub main' h h' ht' => ih P' sets' sub main' h (by omega) ht')

/-- **C115.** Without fragments the generated file has at most one type per selection, and one for the document,
whatever interfaces and unions are selected on. -/
theorem C115_without_fragments_linear (ω : Hash) (fuel : Nat) (showDep : Bool) (cfg : TsConfig)
    (hcon : Consistent schema) (hfr : FragsValid schema frags) (d : Definition) (op : Operation) (ws : List Warning)
    (c : Compile) (hd : OnlyFields (itemsOf d))
    (h : Operation.compile ω fuel ⟨schema, showDep, frags⟩ d = some (.ok op, ws))
    (hc : compileIr ω op cfg schema = .ok c) :
    ∃ f : TsFile, c.contents = f.text cfg.useReadonlyTypes ∧
      f.decls.length ≤ 1 + selectionsSize (itemsOf d) := by
  obtain ⟨h1, _, _, _⟩ := compileIr_agrees hc
  refine ⟨tsFile ω cfg schema op, h1, ?_⟩
  obtain ⟨P, hP, _⟩ := (C07_compiles_iff_valid ω fuel showDep hcon d _ ws h).1 ⟨op, rfl⟩
  have ht := C10_generated_tree ω fuel showDep hcon hfr d op ws P hP h (selectionsSize (itemsOf d) + 1)
  have := coll_small cfg _ P [itemsOf d] op.collection op.name (by simpa using hd) (by simp) ht
  simp only [List.map_cons, List.map_nil, List.sum_cons, List.sum_nil, Nat.add_zero] at this
  exact this

end

/-- A query of fields only, which is compiled. -/
example : OnlyFields (itemsOf Demo.usQuery) ∧ selectionsSize (itemsOf Demo.usQuery) = 6 ∧
    (Demo.textOf Demo.tsCfg Demo.usSchema [] Demo.usQuery).isSome = true :=
  ⟨.cons (.cons (.cons .nil .nil) .nil) (.cons (.cons (.cons .nil .nil) .nil) .nil), by decide, by decide +kernel⟩

end Qlc
