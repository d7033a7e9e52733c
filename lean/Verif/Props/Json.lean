import Verif.Spec.Json
import Verif.Lemmas.Basic
/-
Properties C62, C63: reading the introspection document and the configuration file.
-/
set_option autoImplicit false

namespace Qlc
open Spec

/-! ### Decoding structs -/

theorem allSome_iff {α β : Type} (f : α → Option β) : ∀ (xs : List α) (ys : List β),
    allSome f xs = some ys ↔ List.Forall₂ (fun x y => f x = some y) xs ys
  | [], ys => by
    simp only [allSome]
    constructor
    · intro h; injection h with h; subst h; exact .nil
    · intro h; cases h; rfl
  | x :: xs, ys => by
    simp only [allSome]
    constructor
    · intro h
      cases hx : f x with
      | none => simp [hx] at h
      | some y =>
        cases hxs : allSome f xs with
        | none => simp [hx, hxs] at h
        | some zs =>
          simp only [hx, hxs] at h
          injection h with h
          subst h
          exact .cons hx ((allSome_iff f xs zs).1 hxs)
    · intro h
      cases h with
      | cons h1 h2 => simp only [h1, (allSome_iff f xs _).2 h2]

theorem values_nil (k : String) : values k [] = [] := rfl

theorem values_cons_same (k : String) (v : Json) (ms : List (String × Json)) :
    values k ((k, v) :: ms) = v :: values k ms := by simp [values]

theorem values_cons_other {k k' : String} (h : k' ≠ k) (v : Json) (ms : List (String × Json)) :
    values k ((k', v) :: ms) = values k ms := by simp [values, h]

theorem get?_insert_self' {V : Type} (m : AMap String V) (k : String) (v : V) :
    AMap.get? (AMap.insert m k v) k = some v := by simp [AMap.get?_insert]

theorem get?_insert_other' {V : Type} (m : AMap String V) {k k' : String} (v : V) (h : k ≠ k') :
    AMap.get? (AMap.insert m k v) k' = AMap.get? m k' := by simp [AMap.get?_insert, h]

/-- The member loop: known keys are the table's entry followed by the members', at most one. -/
theorem structMembers_some {known : List String} : ∀ {ms : List (String × Json)} {m m' : AMap String Json},
    structMembers known ms m = some m' → ∀ k ∈ known,
      (AMap.get? m k).toList ++ values k ms = (AMap.get? m' k).toList
  | [], m, m', h, k, _ => by
    simp only [structMembers] at h
    injection h with h
    subst h
    simp [values_nil]
  | (key, v) :: ms, m, m', h, k, hk => by
    simp only [structMembers] at h
    split at h
    · cases hm : AMap.get? m key with
      | some x => simp [hm] at h
      | none =>
        simp only [hm] at h
        have ih := structMembers_some h k hk
        by_cases e : key = k
        · subst e
          rw [get?_insert_self'] at ih
          rw [values_cons_same, hm, ← ih]; rfl
        · rw [get?_insert_other' _ _ e] at ih
          rw [values_cons_other e, ← ih]
    · rename_i hn
      have e : key ≠ k := fun e => hn (e ▸ hk)
      rw [values_cons_other e]
      exact structMembers_some h k hk

theorem structMembers_exists {known : List String} : ∀ (ms : List (String × Json)) (m : AMap String Json),
    (∀ k ∈ known, ((AMap.get? m k).toList ++ values k ms).length ≤ 1) →
    ∃ m', structMembers known ms m = some m'
  | [], m, _ => ⟨m, rfl⟩
  | (key, v) :: ms, m, h => by
    simp only [structMembers]
    split
    · rename_i hk
      have hkey := h key hk
      rw [values_cons_same] at hkey
      cases hm : AMap.get? m key with
      | some x => simp [hm] at hkey
      | none =>
        apply structMembers_exists
        intro k hk'
        have := h k hk'
        by_cases e : key = k
        · subst e
          rw [get?_insert_self']
          rw [values_cons_same, hm] at this
          simpa using this
        · rw [get?_insert_other' _ _ e]
          rw [values_cons_other e] at this
          exact this
    · rename_i hn
      apply structMembers_exists
      intro k hk'
      have e : key ≠ k := fun e => hn (e ▸ hk')
      have := h k hk'
      rwa [values_cons_other e] at this

theorem zip_get? : ∀ (known : List String) (xs : List Json), known.Nodup → xs.length = known.length →
    known.map (AMap.get? (known.zip xs)) = xs.map some
  | [], [], _, _ => rfl
  | [], _ :: _, _, h => by simp at h
  | _ :: _, [], _, h => by simp at h
  | k :: known, x :: xs, hn, h => by
    rw [List.nodup_cons] at hn
    have ih := zip_get? known xs hn.2 (by simpa using h)
    simp only [List.zip_cons_cons, List.map_cons, List.cons.injEq]
    refine ⟨by simp [AMap.get?], ?_⟩
    rw [← ih]
    apply List.map_congr_left
    intro k' hk'
    have : k ≠ k' := fun e => hn.1 (e ▸ hk')
    simp [AMap.get?, this]

theorem asStruct_has {known : List String} (hn : known.Nodup) {j : Json} {m : AMap String Json}
    (h : j.asStruct known = some m) : Has known j (AMap.get? m) := by
  cases j <;> simp only [Json.asStruct] at h
  case arr xs =>
    split at h
    · rename_i hl
      injection h with h
      subst h
      exact .byPosition _ _ (zip_get? known xs hn hl)
    · simp at h
  case obj ms =>
    refine .byKey _ _ fun k hk => ?_
    have := structMembers_some h k hk
    simpa [AMap.get?] using this
  all_goals simp at h

theorem has_asStruct {known : List String} (hn : known.Nodup) {j : Json} {val : String → Option Json}
    (h : Has known j val) : ∃ m, j.asStruct known = some m ∧ ∀ k ∈ known, AMap.get? m k = val k := by
  cases h with
  | byKey ms val h =>
    obtain ⟨m, hm⟩ := structMembers_exists (known := known) ms [] (by
      intro k hk
      rw [h k hk]
      cases val k <;> simp [AMap.get?])
    refine ⟨m, hm, fun k hk => ?_⟩
    have := structMembers_some hm k hk
    rw [h k hk] at this
    simp only [AMap.get?, Option.toList_none, List.nil_append] at this
    cases h1 : val k <;> cases h2 : AMap.get? m k <;> simp_all
  | byPosition xs val h =>
    have hl : xs.length = known.length := by simpa using (congrArg List.length h).symm
    refine ⟨known.zip xs, by simp [Json.asStruct, hl], ?_⟩
    have := (zip_get? known xs hn hl).trans h.symm
    intro k hk
    exact List.map_inj_left.1 this k hk

/-! ### Single values -/

theorem asStr_iff (j : Json) (s : String) : j.asStr = some s ↔ j = .str s := by
  cases j <;> simp [Json.asStr]

theorem asBool_iff (j : Json) (b : Bool) : j.asBool = some b ↔ j = .bool b := by
  cases j <;> simp [Json.asBool]

theorem asUsize_iff (j : Json) (n : Nat) : j.asUsize = some n ↔ IsUsize j n := by
  cases j <;> simp only [Json.asUsize, IsUsize]
  case nat m =>
    split
    · rename_i h
      constructor
      · intro e; injection e with e; subst e; exact ⟨rfl, h⟩
      · rintro ⟨e, _⟩; injection e with e; rw [e]
    · rename_i h
      constructor
      · intro e; simp at e
      · rintro ⟨e, h'⟩; injection e with e; subst e; exact absurd h' h
  all_goals simp

theorem needed_iff {α : Type} (f : Json → Option α) (o : Option Json) (a : α) :
    needed f o = some a ↔ ∃ j, o = some j ∧ f j = some a := by
  cases o <;> simp [needed]

theorem needed_str (o : Option Json) (s : String) :
    needed Json.asStr o = some s ↔ o = some (.str s) := by
  rw [needed_iff]
  constructor
  · rintro ⟨j, rfl, h⟩; rw [(asStr_iff _ _).1 h]
  · rintro rfl; exact ⟨_, rfl, rfl⟩

theorem asOption_ne_null {α : Type} (f : Json → Option α) {j : Json} (h : j ≠ .null) :
    j.asOption f = (f j).map some := by
  cases j <;> simp_all [Json.asOption]

theorem optional_iff {α : Type} {f : Json → Option α} {R : Json → α → Prop}
    (hf : ∀ j a, f j = some a ↔ R j a) (o : Option Json) (a : Option α) :
    optional f o = some a ↔ OrNull R o a := by
  cases o with
  | none =>
    simp only [optional]
    constructor
    · intro h; injection h with h; subst h; exact .missing
    · intro h; cases h; rfl
  | some j =>
    simp only [optional]
    by_cases hj : j = .null
    · subst hj
      simp only [Json.asOption]
      constructor
      · intro h; injection h with h; subst h; exact .null
      · intro h
        cases h with
        | null => rfl
        | value _ _ hne => exact absurd rfl hne
    · rw [asOption_ne_null f hj, Option.map_eq_some_iff]
      constructor
      · rintro ⟨b, hb, rfl⟩; exact .value j b hj ((hf j b).1 hb)
      · intro h
        cases h with
        | null => exact absurd rfl hj
        | value _ b _ hb => exact ⟨b, (hf j b).2 hb, rfl⟩

theorem asVec_iff {α : Type} {f : Json → Option α} {R : Json → α → Prop}
    (hf : ∀ j a, f j = some a ↔ R j a) (j : Json) (l : List α) :
    j.asVec f = some l ↔ IsList R j l := by
  cases j <;> simp only [Json.asVec, IsList]
  case arr xs =>
    rw [allSome_iff]
    constructor
    · intro h; exact ⟨xs, rfl, h.imp fun _ _ => (hf _ _).1⟩
    · rintro ⟨js, e, h⟩; injection e with e; subst e; exact h.imp fun _ _ => (hf _ _).2
  all_goals
    constructor
    · intro h; simp at h
    · rintro ⟨_, e, _⟩; simp at e

/-! ### Type references -/

/-- The keys of a type reference. -/
abbrev refKeys : List String := ["kind", "name", "ofType"]

/-- What is made of the raw values of a type reference. -/
def refOf (m : AMap String Json) : Option JFieldType :=
  match needed Json.asStr (AMap.get? m "kind"), optional Json.asStr (AMap.get? m "name"),
    optional decodeFieldType (AMap.get? m "ofType") with
  | some k, some n, some o => some (.mk k n o)
  | _, _, _ => none

theorem structMembers_keeps {known : List String} {ms : List (String × Json)} {m m' : AMap String Json}
    (h : structMembers known ms m = some m') {k : String} (hk : k ∈ known) {v : Json}
    (hv : AMap.get? m k = some v) : AMap.get? m' k = some v := by
  have := structMembers_some h k hk
  rw [hv] at this
  cases h2 : AMap.get? m' k <;> simp_all

theorem refOf_fails {m : AMap String Json} {k : String} {v : Json} (hv : AMap.get? m k = some v)
    (h : k = "kind" ∧ v.asStr = none ∨ k = "name" ∧ v.asOption Json.asStr = none ∨
      k = "ofType" ∧ v.asOption decodeFieldType = none) : refOf m = none := by
  unfold refOf
  rcases h with ⟨rfl, h⟩ | ⟨rfl, h⟩ | ⟨rfl, h⟩
  · simp [hv, needed, h]
  · simp only [hv, optional, h]
    cases needed Json.asStr (AMap.get? m "kind") <;> rfl
  · simp only [hv, optional, h]
    cases needed Json.asStr (AMap.get? m "kind") <;>
      cases optional Json.asStr (AMap.get? m "name") <;> simp_all [optional]

/-- Reading the members one by one is the same as collecting them first. -/
theorem decodeMembers_eq : ∀ (ms : List (String × Json)) (m : AMap String Json) (kind : Option String)
    (name : Option (Option String)) (ofType : Option (Option JFieldType)),
    (AMap.get? m "kind").map Json.asStr = kind.map some →
    (AMap.get? m "name").map (Json.asOption Json.asStr) = name.map some →
    (AMap.get? m "ofType").map (Json.asOption decodeFieldType) = ofType.map some →
    decodeFieldTypeMembers kind name ofType ms = (structMembers refKeys ms m).bind refOf
  | [], m, kind, name, ofType, hk, hn, ho => by
    rw [decodeFieldTypeMembers.eq_def]
    simp only [structMembers, Option.bind_some, refOf]
    cases h1 : AMap.get? m "kind" <;> cases kind <;> simp [h1] at hk
    · simp [needed]
    · simp only [needed, hk]
      have e1 : optional Json.asStr (AMap.get? m "name") = some (name.getD none) := by
        cases h2 : AMap.get? m "name" <;> cases name <;> simp [h2] at hn <;> simp [optional, hn]
      have e2 : optional decodeFieldType (AMap.get? m "ofType") = some (ofType.getD none) := by
        cases h2 : AMap.get? m "ofType" <;> cases ofType <;> simp [h2] at ho <;> simp [optional, ho]
      simp only [e1, e2]
  | (key, v) :: rest, m, kind, name, ofType, hk, hn, ho => by
    rw [decodeFieldTypeMembers.eq_def]
    simp only [structMembers]
    by_cases h1 : key = "kind"
    · subst h1
      have hmem : "kind" ∈ refKeys := by simp
      rw [if_pos rfl, if_pos hmem]
      cases hg : AMap.get? m "kind" <;> cases kind <;> simp [hg] at hk
      · simp only
        cases hv : v.asStr with
        | none =>
          simp only
          cases hs : structMembers refKeys rest (AMap.insert m "kind" v) with
          | none => rfl
          | some m' =>
            exact (refOf_fails (structMembers_keeps hs hmem (get?_insert_self' _ _ _))
              (.inl ⟨rfl, hv⟩)).symm
        | some s =>
          simp only
          apply decodeMembers_eq
          · rw [get?_insert_self']; simp [hv]
          · rw [get?_insert_other' _ _ (by decide)]; exact hn
          · rw [get?_insert_other' _ _ (by decide)]; exact ho
      · simp
    · rw [if_neg h1]
      by_cases h2 : key = "name"
      · subst h2
        have hmem : "name" ∈ refKeys := by simp
        rw [if_pos rfl, if_pos hmem]
        cases hg : AMap.get? m "name" <;> cases name <;> simp [hg] at hn
        · simp only
          cases hv : v.asOption Json.asStr with
          | none =>
            simp only
            cases hs : structMembers refKeys rest (AMap.insert m "name" v) with
            | none => rfl
            | some m' =>
              exact (refOf_fails (structMembers_keeps hs hmem (get?_insert_self' _ _ _))
                (.inr (.inl ⟨rfl, hv⟩))).symm
          | some s =>
            simp only
            apply decodeMembers_eq
            · rw [get?_insert_other' _ _ (by decide)]; exact hk
            · rw [get?_insert_self']; simp [hv]
            · rw [get?_insert_other' _ _ (by decide)]; exact ho
        · simp
      · rw [if_neg h2]
        by_cases h3 : key = "ofType"
        · subst h3
          have hmem : "ofType" ∈ refKeys := by simp
          rw [if_pos rfl, if_pos hmem]
          cases hg : AMap.get? m "ofType" <;> cases ofType <;> simp [hg] at ho
          · simp only
            by_cases hnull : v = .null
            · subst hnull
              simp only
              apply decodeMembers_eq
              · rw [get?_insert_other' _ _ (by decide)]; exact hk
              · rw [get?_insert_other' _ _ (by decide)]; exact hn
              · rw [get?_insert_self']; rfl
            · have e : (match v with
                  | .null => decodeFieldTypeMembers kind name (some none) rest
                  | v => match decodeFieldType v with
                    | none => none
                    | some t => decodeFieldTypeMembers kind name (some (some t)) rest) =
                  (match decodeFieldType v with
                    | none => none
                    | some t => decodeFieldTypeMembers kind name (some (some t)) rest) := by
                cases v <;> first | rfl | exact absurd rfl hnull
              refine e.trans ?_
              cases hv : decodeFieldType v with
              | none =>
                simp only
                cases hs : structMembers refKeys rest (AMap.insert m "ofType" v) with
                | none => rfl
                | some m' =>
                  exact (refOf_fails (structMembers_keeps hs hmem (get?_insert_self' _ _ _))
                    (.inr (.inr ⟨rfl, by rw [asOption_ne_null _ hnull, hv]; rfl⟩))).symm
              | some t =>
                simp only
                apply decodeMembers_eq
                · rw [get?_insert_other' _ _ (by decide)]; exact hk
                · rw [get?_insert_other' _ _ (by decide)]; exact hn
                · rw [get?_insert_self', Option.map_some, asOption_ne_null _ hnull, hv]; rfl
          · simp
        · rw [if_neg h3, if_neg (by simp [h1, h2, h3])]
          exact decodeMembers_eq rest m kind name ofType hk hn ho

/-- Reading a type reference, as for the other structs. -/
theorem decodeFieldType_eq (j : Json) :
    decodeFieldType j = (j.asStruct refKeys).bind refOf := by
  match j with
  | .null => rfl
  | .bool _ => rfl
  | .nat _ => rfl
  | .num _ => rfl
  | .str _ => rfl
  | .obj ms =>
    rw [decodeFieldType]
    exact decodeMembers_eq ms [] none none none rfl rfl rfl
  | .arr [] => rfl
  | .arr [_] => rfl
  | .arr [_, _] => rfl
  | .arr (_ :: _ :: _ :: _ :: _) => simp [decodeFieldType, Json.asStruct]
  | .arr [k, n, o] =>
    simp only [Json.asStruct, List.length_cons, List.length_nil, if_true, Option.bind_some,
      List.zip_cons_cons, List.zip_nil_left, refOf, AMap.get?, String.reduceEq, if_false, needed, optional]
    by_cases ho : o = .null
    · subst ho
      rw [decodeFieldType]
      cases k.asStr <;> cases n.asOption Json.asStr <;> rfl
    · rw [asOption_ne_null _ ho]
      have : decodeFieldType (.arr [k, n, o]) =
          (match k.asStr, n.asOption Json.asStr, decodeFieldType o with
            | some k, some n, some o => some (.mk k n (some o))
            | _, _, _ => none) := by
        cases o <;> first | exact absurd rfl ho | (rw [decodeFieldType] <;> first | rfl | exact ho) | (rw [decodeFieldType.eq_def] <;> rfl)
      rw [this]
      cases k.asStr <;> cases n.asOption Json.asStr <;> cases decodeFieldType o <;> rfl

theorem ref_of_reads {j : Json} {t : JFieldType} (h : ReadsRef j t) : decodeFieldType j = some t := by
  induction h with
  | last j val k n hh hk hn ho =>
    obtain ⟨m, hm, hv⟩ := has_asStruct (by decide) hh
    rw [decodeFieldType_eq, hm, Option.bind_some, refOf]
    rw [hv _ (by simp), hv _ (by simp), hv _ (by simp), hk, (optional_iff asStr_iff _ _).2 hn]
    rcases ho with ho | ho <;> rw [ho] <;> rfl
  | wrapper j val k n o t hh hk hn ho hr ih =>
    obtain ⟨m, hm, hv⟩ := has_asStruct (by decide) hh
    rw [decodeFieldType_eq, hm, Option.bind_some, refOf]
    rw [hv _ (by simp), hv _ (by simp), hv _ (by simp), hk, (optional_iff asStr_iff _ _).2 hn, ho]
    have hnull : o ≠ .null := by
      intro e
      subst e
      simp [decodeFieldType] at ih
    simp only [needed, Json.asStr, optional, asOption_ne_null _ hnull, ih, Option.map_some]

theorem reads_of_ref : ∀ (t : JFieldType) (j : Json), decodeFieldType j = some t → ReadsRef j t
  | .mk k n o, j, h => by
    rw [decodeFieldType_eq] at h
    cases hm : j.asStruct refKeys with
    | none => simp [hm] at h
    | some m =>
      have hh := asStruct_has (by decide) hm
      simp only [hm, Option.bind_some, refOf] at h
      split at h
      · rename_i k' n' o' h1 h2 h3
        injection h with h
        injection h with e1 e2 e3
        subst e1; subst e2; subst e3
        rw [needed_str] at h1
        have h2' := (optional_iff asStr_iff _ _).1 h2
        cases hg : AMap.get? m "ofType" with
        | none =>
          simp only [hg, optional] at h3
          injection h3 with h3
          subst h3
          exact .last j _ k' n' hh h1 h2' (.inl hg)
        | some v =>
          simp only [hg, optional] at h3
          by_cases hv : v = .null
          · subst hv
            injection h3 with h3
            subst h3
            exact .last j _ k' n' hh h1 h2' (.inr hg)
          · rw [asOption_ne_null _ hv, Option.map_eq_some_iff] at h3
            obtain ⟨t, ht, rfl⟩ := h3
            exact .wrapper j _ k' n' v t hh h1 h2' hg (reads_of_ref t v ht)
      · simp at h

theorem decodeFieldType_iff (j : Json) (t : JFieldType) :
    decodeFieldType j = some t ↔ ReadsRef j t := ⟨reads_of_ref t j, ref_of_reads⟩

/-! ### The other structs -/

theorem decodeDescription_iff (j : Json) (n : String) : decodeDescription j = some n ↔ ReadsName j n := by
  unfold decodeDescription ReadsName
  constructor
  · intro h
    split at h
    · simp at h
    · rename_i m hm
      exact ⟨_, asStruct_has (by decide) hm, (needed_str _ _).1 h⟩
  · rintro ⟨val, hh, hn⟩
    obtain ⟨m, hm, hv⟩ := has_asStruct (by decide) hh
    simp only [hm, hv _ (List.mem_singleton.2 rfl), hn]
    rfl

theorem decodeField_iff (j : Json) (f : JField) : decodeField j = some f ↔ ReadsField j f := by
  unfold decodeField ReadsField
  constructor
  · intro h
    split at h
    · simp at h
    · rename_i m hm
      split at h
      · rename_i n d t b h1 h2 h3 h4
        injection h with h
        subst h
        rw [needed_str] at h1
        rw [needed_iff] at h3
        obtain ⟨tj, h3, h3'⟩ := h3
        exact ⟨_, asStruct_has (by decide) hm, h1, (optional_iff asStr_iff _ _).1 h2,
          ⟨tj, h3, (decodeFieldType_iff _ _).1 h3'⟩, (optional_iff asBool_iff _ _).1 h4⟩
      · simp at h
  · rintro ⟨val, hh, h1, h2, ⟨tj, h3, h3'⟩, h4⟩
    obtain ⟨m, hm, hv⟩ := has_asStruct (by decide) hh
    have e1 := (needed_str _ _).2 h1
    have e2 := (optional_iff asStr_iff _ _).2 h2
    have e3 := (needed_iff decodeFieldType _ _).2 ⟨tj, h3, (decodeFieldType_iff _ _).2 h3'⟩
    have e4 := (optional_iff asBool_iff _ _).2 h4
    rw [← hv _ (by simp)] at e1 e2 e3 e4
    simp only [hm, e1, e2, e3, e4]

theorem decodeType_iff (j : Json) (t : JType) : decodeType j = some t ↔ ReadsType j t := by
  unfold decodeType ReadsType
  constructor
  · intro h
    split at h
    · simp at h
    · rename_i m hm
      split at h
      · rename_i k n d ps is fs es h1 h2 h3 h4 h5 h6 h7
        injection h with h
        subst h
        rw [needed_str] at h1 h2
        exact ⟨_, asStruct_has (by decide) hm, h1, h2, (optional_iff asStr_iff _ _).1 h3,
          (optional_iff (asVec_iff decodeDescription_iff) _ _).1 h4,
          (optional_iff (asVec_iff decodeField_iff) _ _).1 h5,
          (optional_iff (asVec_iff decodeField_iff) _ _).1 h6,
          (optional_iff (asVec_iff decodeDescription_iff) _ _).1 h7⟩
      · simp at h
  · rintro ⟨val, hh, h1, h2, h3, h4, h5, h6, h7⟩
    obtain ⟨m, hm, hv⟩ := has_asStruct (by decide) hh
    have e1 := (needed_str _ _).2 h1
    have e2 := (needed_str _ _).2 h2
    have e3 := (optional_iff asStr_iff _ _).2 h3
    have e4 := (optional_iff (asVec_iff decodeDescription_iff) _ _).2 h4
    have e5 := (optional_iff (asVec_iff decodeField_iff) _ _).2 h5
    have e6 := (optional_iff (asVec_iff decodeField_iff) _ _).2 h6
    have e7 := (optional_iff (asVec_iff decodeDescription_iff) _ _).2 h7
    rw [← hv _ (by simp)] at e1 e2 e3 e4 e5 e6 e7
    simp only [hm, e1, e2, e3, e4, e5, e6, e7]

theorem map_mk_iff (o : Option (List JType)) (s : JSchema) :
    o.map JSchema.mk = some s ↔ o = some s.types := by
  cases o <;> cases s <;> simp

/-- C62: an introspection document is read exactly as specified: `data`, `__schema`, `types` and the
members of types, fields and type references are found by key (or by position in an array), a member
that may be absent may be `null`, and nothing else is looked at. -/
theorem C62_introspection_read_by_key (j : Json) (s : JSchema) :
    decodeIntrospection j = some s ↔ ReadsIntrospection j s := by
  unfold decodeIntrospection ReadsIntrospection
  constructor
  · intro h
    split at h
    · simp at h
    · rename_i m hm
      split at h
      · simp at h
      · rename_i d hd
        split at h
        · simp at h
        · rename_i m' hm'
          obtain ⟨sc, hsc, hs⟩ := (needed_iff _ _ _).1 h
          unfold decodeSchema at hs
          split at hs
          · simp at hs
          · rename_i m'' hm''
            obtain ⟨ts, hts, h2⟩ := (needed_iff _ _ _).1 ((map_mk_iff _ _).1 hs)
            exact ⟨_, _, _, d, sc, ts, asStruct_has (by decide) hm, hd,
              asStruct_has (by decide) hm', hsc, asStruct_has (by decide) hm'', hts,
              (asVec_iff decodeType_iff _ _).1 h2⟩
  · rintro ⟨v1, v2, v3, d, sc, ts, h1, e1, h2, e2, h3, e3, hl⟩
    obtain ⟨m1, hm1, hv1⟩ := has_asStruct (by decide) h1
    obtain ⟨m2, hm2, hv2⟩ := has_asStruct (by decide) h2
    obtain ⟨m3, hm3, hv3⟩ := has_asStruct (by decide) h3
    rw [← hv1 _ (by simp)] at e1
    rw [← hv2 _ (by simp)] at e2
    rw [← hv3 _ (by simp)] at e3
    simp only [hm1, e1, hm2, e2, needed, decodeSchema, hm3, e3,
      (asVec_iff decodeType_iff _ _).2 hl, Option.map_some]

theorem schemaFile_iff (o : Option Json) (p : Option Path) :
    (∃ s, optional Json.asStr o = some s ∧ p = s.map Path.ofString) ↔
      OrNull (fun j p => ∃ s, j = .str s ∧ p = Path.ofString s) o p := by
  constructor
  · rintro ⟨s, h, rfl⟩
    cases (optional_iff asStr_iff _ _).1 h with
    | missing => exact .missing
    | null => exact .null
    | value j a hne e => exact .value j _ hne ⟨a, e, rfl⟩
  · intro h
    cases h with
    | missing => exact ⟨none, rfl, rfl⟩
    | null => exact ⟨none, rfl, rfl⟩
    | value j a hne e =>
      obtain ⟨s, rfl, rfl⟩ := e
      exact ⟨some s, rfl, rfl⟩

/-- C63: a configuration file is read exactly as specified: nine optional settings, found by key. -/
theorem C63_config_read_by_key (j : Json) (c : ConfigFile) :
    decodeConfig j = some c ↔ ReadsConfig j c := by
  unfold decodeConfig ReadsConfig
  constructor
  · intro h
    split at h
    · simp at h
    · rename_i m hm
      split at h
      · rename_i h1 h2 h3 h4 h5 h6 h7 h8 h9
        injection h with h
        subst h
        exact ⟨_, asStruct_has (by decide) hm, (schemaFile_iff _ _).1 ⟨_, h1, rfl⟩,
          (optional_iff asBool_iff _ _).1 h2, (optional_iff asBool_iff _ _).1 h3,
          (optional_iff asStr_iff _ _).1 h4, (optional_iff asUsize_iff _ _).1 h5,
          (optional_iff asBool_iff _ _).1 h6, (optional_iff asStr_iff _ _).1 h7,
          (optional_iff asStr_iff _ _).1 h8, (optional_iff asStr_iff _ _).1 h9⟩
      · simp at h
  · rintro ⟨val, hh, h1, h2, h3, h4, h5, h6, h7, h8, h9⟩
    obtain ⟨m, hm, hv⟩ := has_asStruct (by decide) hh
    obtain ⟨s, e1, hs⟩ := (schemaFile_iff _ _).2 h1
    have e2 := (optional_iff asBool_iff _ _).2 h2
    have e3 := (optional_iff asBool_iff _ _).2 h3
    have e4 := (optional_iff asStr_iff _ _).2 h4
    have e5 := (optional_iff asUsize_iff _ _).2 h5
    have e6 := (optional_iff asBool_iff _ _).2 h6
    have e7 := (optional_iff asStr_iff _ _).2 h7
    have e8 := (optional_iff asStr_iff _ _).2 h8
    have e9 := (optional_iff asStr_iff _ _).2 h9
    rw [← hv _ (by simp)] at e1 e2 e3 e4 e5 e6 e7 e8 e9
    simp only [hm, e1, e2, e3, e4, e5, e6, e7, e8, e9, ← hs]

/-! ### What is not looked at -/

/-- `SameFor`, in either direction. -/
def Alike (K : List String) (a b : Json) : Prop := SameFor K a b ∨ SameFor K b a

theorem Alike.symm {K : List String} {a b : Json} (h : Alike K a b) : Alike K b a := Or.symm h

/-- Alike optional values. -/
def AlikeOpt (K : List String) : Option Json → Option Json → Prop
  | none, none => True
  | some a, some b => Alike K a b
  | _, _ => False

theorem alike_str {K : List String} {a : Json} {s : String} (h : Alike K (.str s) a) : a = .str s := by
  rcases h with h | h <;> cases h <;> rfl

theorem alike_bool {K : List String} {a : Json} {s : Bool} (h : Alike K (.bool s) a) : a = .bool s := by
  rcases h with h | h <;> cases h <;> rfl

theorem alike_nat {K : List String} {a : Json} {s : Nat} (h : Alike K (.nat s) a) : a = .nat s := by
  rcases h with h | h <;> cases h <;> rfl

theorem alike_null {K : List String} {a : Json} (h : Alike K .null a) : a = .null := by
  rcases h with h | h <;> cases h <;> rfl

theorem alike_arr {K : List String} {a : Json} {xs : List Json} (h : Alike K (.arr xs) a) :
    ∃ ys, a = .arr ys ∧ List.Forall₂ (Alike K) xs ys := by
  rcases h with h | h <;> cases h with
    | refl => exact ⟨xs, rfl, List.forall₂_same.2 fun _ _ => .inl (.refl _)⟩
    | arr _ ys h => first
      | exact ⟨_, rfl, h.imp fun _ _ => .inl⟩
      | exact ⟨_, rfl, h.flip.imp fun _ _ => .inr⟩

theorem alike_obj {K : List String} {a : Json} {ms : List (String × Json)} (h : Alike K (.obj ms) a) :
    ∃ ns, a = .obj ns ∧ ∀ k ∈ K, List.Forall₂ (Alike K) (values k ms) (values k ns) := by
  rcases h with h | h <;> cases h with
    | refl => exact ⟨ms, rfl, fun _ _ => List.forall₂_same.2 fun _ _ => .inl (.refl _)⟩
    | obj _ ys h => first
      | exact ⟨_, rfl, fun k hk => (h k hk).imp fun _ _ => .inl⟩
      | exact ⟨_, rfl, fun k hk => (h k hk).flip.imp fun _ _ => .inr⟩

theorem forall₂_toList {K : List String} {o : Option Json} {l : List Json}
    (h : List.Forall₂ (Alike K) o.toList l) : ∃ o' : Option Json, l = o'.toList ∧ AlikeOpt K o o' := by
  cases o with
  | none => cases h; exact ⟨none, rfl, trivial⟩
  | some a =>
    cases h with
    | cons h1 h2 => cases h2; exact ⟨some _, rfl, h1⟩

theorem lookup_forall₂ {K : List String} : ∀ (known : List String) (val : String → Option Json)
    (xs ys : List Json), known.Nodup → known.map val = xs.map some → List.Forall₂ (Alike K) xs ys →
    ∃ val' : String → Option Json, known.map val' = ys.map some ∧
      ∀ k ∈ known, AlikeOpt K (val k) (val' k)
  | [], val, xs, ys, _, h, h2 => by
    cases xs with
    | nil => cases h2; exact ⟨val, rfl, by simp⟩
    | cons => simp at h
  | k :: known, val, xs, ys, hn, h, h2 => by
    cases h2 with
    | nil => simp at h
    | @cons x y xs ys hxy h2 =>
      simp only [List.map_cons, List.cons.injEq] at h
      rw [List.nodup_cons] at hn
      obtain ⟨val', h3, h4⟩ := lookup_forall₂ known val xs ys hn.2 h.2 h2
      refine ⟨fun k' => if k' = k then some y else val' k', ?_, ?_⟩
      · simp only [List.map_cons, if_true, List.cons.injEq, true_and]
        rw [← h3]
        apply List.map_congr_left
        intro k' hk'
        have : k' ≠ k := fun e => hn.1 (e ▸ hk')
        simp [this]
      · intro k' hk'
        by_cases e : k' = k
        · subst e
          simp only [if_true]
          rw [h.1]
          exact hxy
        · simp only [e, if_false]
          rcases List.mem_cons.1 hk' with h' | h'
          · exact absurd h' e
          · exact h4 k' h'

theorem has_alike {K known : List String} (hK : ∀ k ∈ known, k ∈ K) (hn : known.Nodup) {a b : Json}
    (hab : Alike K a b) {val : String → Option Json} (h : Has known a val) :
    ∃ val', Has known b val' ∧ ∀ k ∈ known, AlikeOpt K (val k) (val' k) := by
  cases h with
  | byKey ms val h =>
    obtain ⟨ns, rfl, hv⟩ := alike_obj hab
    have : ∀ k, ∃ o : Option Json, k ∈ known → values k ns = o.toList ∧ AlikeOpt K (val k) o := by
      intro k
      by_cases hk : k ∈ known
      · have := hv k (hK k hk)
        rw [h k hk] at this
        obtain ⟨o, h1, h2⟩ := forall₂_toList this
        exact ⟨o, fun _ => ⟨h1, h2⟩⟩
      · exact ⟨none, fun h => absurd h hk⟩
    choose val' hval' using this
    exact ⟨val', .byKey _ _ fun k hk => (hval' k hk).1, fun k hk => (hval' k hk).2⟩
  | byPosition xs val h =>
    obtain ⟨ys, rfl, hv⟩ := alike_arr hab
    obtain ⟨val', h1, h2⟩ := lookup_forall₂ known val xs ys hn h hv
    exact ⟨val', .byPosition _ _ h1, h2⟩

theorem alikeOpt_some {K : List String} {a : Json} {o o' : Option Json} (h : AlikeOpt K o o')
    (ho : o = some a) : ∃ b, o' = some b ∧ Alike K a b := by
  subst ho
  cases o' with
  | none => exact h.elim
  | some b => exact ⟨b, rfl, h⟩

theorem alikeOpt_str {K : List String} {s : String} {o o' : Option Json} (h : AlikeOpt K o o')
    (ho : o = some (.str s)) : o' = some (.str s) := by
  obtain ⟨b, rfl, hb⟩ := alikeOpt_some h ho
  rw [alike_str hb]

theorem orNull_alike {K : List String} {α : Type} {R : Json → α → Prop}
    (hR : ∀ a b x, Alike K a b → R a x → R b x) {o o' : Option Json} (h : AlikeOpt K o o')
    {x : Option α} (hx : OrNull R o x) : OrNull R o' x := by
  cases hx with
  | missing =>
    cases o' with
    | none => exact .missing
    | some _ => exact h.elim
  | null =>
    obtain ⟨b, rfl, hb⟩ := alikeOpt_some h rfl
    rw [alike_null hb]
    exact .null
  | value j a hne hj =>
    obtain ⟨b, rfl, hb⟩ := alikeOpt_some h rfl
    refine .value b a ?_ (hR _ _ _ hb hj)
    rintro rfl
    exact hne (alike_null hb.symm)

theorem isStr_alike {K : List String} (a b : Json) (x : String) (h : Alike K a b) (ha : IsStr a x) :
    IsStr b x := by
  cases ha; exact alike_str h

theorem isBool_alike {K : List String} (a b : Json) (x : Bool) (h : Alike K a b) (ha : IsBool a x) :
    IsBool b x := by
  cases ha; exact alike_bool h

theorem isUsize_alike {K : List String} (a b : Json) (x : Nat) (h : Alike K a b) (ha : IsUsize a x) :
    IsUsize b x := by
  obtain ⟨rfl, hlt⟩ := ha; exact ⟨alike_nat h, hlt⟩

theorem isList_alike {K : List String} {α : Type} {R : Json → α → Prop}
    (hR : ∀ a b x, Alike K a b → R a x → R b x) (a b : Json) (l : List α) (h : Alike K a b)
    (ha : IsList R a l) : IsList R b l := by
  obtain ⟨xs, rfl, hx⟩ := ha
  obtain ⟨ys, rfl, hy⟩ := alike_arr h
  refine ⟨ys, rfl, ?_⟩
  clear h
  induction hx generalizing ys with
  | nil => cases hy; exact .nil
  | cons h1 _ ih =>
    cases hy with
    | cons h3 h4 => exact .cons (hR _ _ _ h3 h1) (ih _ h4)

theorem readsRef_alike {a : Json} {t : JFieldType} (h : ReadsRef a t) :
    ∀ b, Alike introspectionKeys a b → ReadsRef b t := by
  induction h with
  | last j val k n hh hk hn ho =>
    intro b hb
    obtain ⟨val', hh', hv⟩ := has_alike (by decide) (by decide) hb hh
    refine .last b val' k n hh' (alikeOpt_str (hv _ (by simp)) hk)
      (orNull_alike isStr_alike (hv _ (by simp)) hn) ?_
    have := hv "ofType" (by simp)
    rcases ho with ho | ho
    · rw [ho] at this
      cases h : val' "ofType" with
      | none => exact .inl rfl
      | some _ => rw [h] at this; exact this.elim
    · obtain ⟨c, hc, h⟩ := alikeOpt_some this ho
      rw [alike_null h] at hc
      exact .inr hc
  | wrapper j val k n o t hh hk hn ho _ ih =>
    intro b hb
    obtain ⟨val', hh', hv⟩ := has_alike (by decide) (by decide) hb hh
    obtain ⟨c, hc, h⟩ := alikeOpt_some (hv "ofType" (by simp)) ho
    exact .wrapper b val' k n c t hh' (alikeOpt_str (hv _ (by simp)) hk)
      (orNull_alike isStr_alike (hv _ (by simp)) hn) hc (ih c h)

theorem readsName_alike (a b : Json) (n : String) (h : Alike introspectionKeys a b)
    (ha : ReadsName a n) : ReadsName b n := by
  obtain ⟨val, hh, hn⟩ := ha
  obtain ⟨val', hh', hv⟩ := has_alike (by decide) (by decide) h hh
  exact ⟨val', hh', alikeOpt_str (hv _ (by simp)) hn⟩

theorem readsField_alike (a b : Json) (f : JField) (h : Alike introspectionKeys a b)
    (ha : ReadsField a f) : ReadsField b f := by
  obtain ⟨val, hh, h1, h2, ⟨t, h3, h3'⟩, h4⟩ := ha
  obtain ⟨val', hh', hv⟩ := has_alike (by decide) (by decide) h hh
  obtain ⟨c, hc, h5⟩ := alikeOpt_some (hv "type" (by simp)) h3
  exact ⟨val', hh', alikeOpt_str (hv _ (by simp)) h1, orNull_alike isStr_alike (hv _ (by simp)) h2,
    ⟨c, hc, readsRef_alike h3' c h5⟩, orNull_alike isBool_alike (hv _ (by simp)) h4⟩

theorem readsType_alike (a b : Json) (t : JType) (h : Alike introspectionKeys a b)
    (ha : ReadsType a t) : ReadsType b t := by
  obtain ⟨val, hh, h1, h2, h3, h4, h5, h6, h7⟩ := ha
  obtain ⟨val', hh', hv⟩ := has_alike (by decide) (by decide) h hh
  exact ⟨val', hh', alikeOpt_str (hv _ (by simp)) h1, alikeOpt_str (hv _ (by simp)) h2,
    orNull_alike isStr_alike (hv _ (by simp)) h3,
    orNull_alike (isList_alike readsName_alike) (hv _ (by simp)) h4,
    orNull_alike (isList_alike readsField_alike) (hv _ (by simp)) h5,
    orNull_alike (isList_alike readsField_alike) (hv _ (by simp)) h6,
    orNull_alike (isList_alike readsName_alike) (hv _ (by simp)) h7⟩

theorem readsIntrospection_alike (a b : Json) (s : JSchema) (h : Alike introspectionKeys a b)
    (ha : ReadsIntrospection a s) : ReadsIntrospection b s := by
  obtain ⟨v1, v2, v3, d, sc, ts, h1, e1, h2, e2, h3, e3, hl⟩ := ha
  obtain ⟨w1, g1, k1⟩ := has_alike (by decide) (by decide) h h1
  obtain ⟨d', f1, a1⟩ := alikeOpt_some (k1 "data" (by simp)) e1
  obtain ⟨w2, g2, k2⟩ := has_alike (by decide) (by decide) a1 h2
  obtain ⟨sc', f2, a2⟩ := alikeOpt_some (k2 "__schema" (by simp)) e2
  obtain ⟨w3, g3, k3⟩ := has_alike (by decide) (by decide) a2 h3
  obtain ⟨ts', f3, a3⟩ := alikeOpt_some (k3 "types" (by simp)) e3
  exact ⟨w1, w2, w3, d', sc', ts', g1, f1, g2, f2, g3, f3, isList_alike readsType_alike _ _ _ a3 hl⟩

theorem option_eq_of_iff {α : Type} {a b : Option α} (h : ∀ x, a = some x ↔ b = some x) : a = b := by
  cases a with
  | none =>
    cases b with
    | none => rfl
    | some y => exact ((h y).2 rfl)
  | some x => exact ((h x).1 rfl).symm

/-- C62: whatever else an introspection document contains (arguments, interfaces, directives,
deprecation reasons, extensions, …) and however the members of its objects are ordered, qlc reads the
same schema from it, or rejects it just the same. -/
theorem C62_other_members_do_not_matter (a b : Json) (h : SameFor introspectionKeys a b) :
    decodeIntrospection a = decodeIntrospection b := by
  apply option_eq_of_iff
  intro s
  rw [C62_introspection_read_by_key, C62_introspection_read_by_key]
  exact ⟨readsIntrospection_alike a b s (.inl h), readsIntrospection_alike b a s (.inr h)⟩

theorem readsConfig_alike (a b : Json) (c : ConfigFile) (h : Alike configKeys a b)
    (ha : ReadsConfig a c) : ReadsConfig b c := by
  obtain ⟨val, hh, h1, h2, h3, h4, h5, h6, h7, h8, h9⟩ := ha
  obtain ⟨val', hh', hv⟩ := has_alike (by decide) (by decide) h hh
  exact ⟨val', hh',
    orNull_alike (fun a b x h' hx => by
      obtain ⟨s, rfl, rfl⟩ := hx
      exact ⟨s, alike_str h', rfl⟩) (hv _ (by simp)) h1,
    orNull_alike isBool_alike (hv _ (by simp)) h2, orNull_alike isBool_alike (hv _ (by simp)) h3,
    orNull_alike isStr_alike (hv _ (by simp)) h4, orNull_alike isUsize_alike (hv _ (by simp)) h5,
    orNull_alike isBool_alike (hv _ (by simp)) h6, orNull_alike isStr_alike (hv _ (by simp)) h7,
    orNull_alike isStr_alike (hv _ (by simp)) h8, orNull_alike isStr_alike (hv _ (by simp)) h9⟩

/-- C63: only the nine settings count, in whatever order; members with other keys are ignored without
a message. -/
theorem C63_other_members_do_not_matter (a b : Json) (h : SameFor configKeys a b) :
    decodeConfig a = decodeConfig b := by
  apply option_eq_of_iff
  intro s
  rw [C63_config_read_by_key, C63_config_read_by_key]
  exact ⟨readsConfig_alike a b s (.inl h), readsConfig_alike b a s (.inr h)⟩

/-- C63, witness: the command line option is `--schema-path`, but its camelcased name is not a setting:
a configuration file with `schemaPath` is accepted and the setting ignored. -/
theorem C63_camelcased_schema_path_ignored (v : Json) (ms : List (String × Json)) :
    decodeConfig (.obj (("schemaPath", v) :: ms)) = decodeConfig (.obj ms) :=
  C63_other_members_do_not_matter _ _ <| .obj _ _ fun k hk => by
    have : values k (("schemaPath", v) :: ms) = values k ms := by
      unfold values
      rw [List.filter_cons_of_neg]
      rintro h
      have h := of_decide_eq_true h
      subst h
      exact absurd hk (by decide : "schemaPath" ∉ configKeys)
    rw [this]
    exact List.forall₂_same.2 fun _ _ => .refl _

/-! ### The whole program -/

theorem asSchema_same {a b : JsonFile} (h : SameFile introspectionKeys a b) :
    a.asSchema = b.asSchema := by
  cases h with
  | refl => rfl
  | tree a b e h => simp only [JsonFile.asSchema, C62_other_members_do_not_matter a b h]

theorem asConfig_same {a b : JsonFile} (h : SameFile configKeys a b) : a.asConfig = b.asConfig := by
  cases h with
  | refl => rfl
  | tree a b e h => simp only [JsonFile.asConfig, C63_other_members_do_not_matter a b h]

/-- C62 for whole runs: exchanging the schema file for one that only differs in unread members and in
member order changes nothing about what the program may print, write and exit with. -/
theorem C62_runs_unchanged (ω : Path → Hash) (ω' : Hash) (fuel : Nat) (ext : Ext) (paint : Paint)
    (cpus : Nat) (configs schemas schemas' : Path → JsonFile)
    (hs : ∀ p, SameFile introspectionKeys (schemas p) (schemas' p))
    (tree : Path → Entry) (w : World) (args : CliArgs) (f : Finished) :
    Runs ω ω' fuel ext paint cpus (fun p => (configs p).asConfig) (fun p => (schemas p).asSchema)
        tree w args f ↔
      Runs ω ω' fuel ext paint cpus (fun p => (configs p).asConfig)
        (fun p => (schemas' p).asSchema) tree w args f := by
  rw [funext fun p => asSchema_same (hs p)]

/-- C63 for whole runs, in the same way. -/
theorem C63_runs_unchanged (ω : Path → Hash) (ω' : Hash) (fuel : Nat) (ext : Ext) (paint : Paint)
    (cpus : Nat) (configs configs' schemas : Path → JsonFile)
    (hc : ∀ p, SameFile configKeys (configs p) (configs' p))
    (tree : Path → Entry) (w : World) (args : CliArgs) (f : Finished) :
    Runs ω ω' fuel ext paint cpus (fun p => (configs p).asConfig) (fun p => (schemas p).asSchema)
        tree w args f ↔
      Runs ω ω' fuel ext paint cpus (fun p => (configs' p).asConfig)
        (fun p => (schemas p).asSchema) tree w args f := by
  rw [funext fun p => asConfig_same (hc p)]

/-! ### A concrete case -/

namespace Demo

/-- A type reference as the introspection query returns it. -/
def jsonRef (kind name : String) : Json :=
  .obj [("kind", .str kind), ("name", .str name), ("ofType", .null)]

/-- `[Post!]`, with the members in an unusual order and one that is not read. -/
def jsonList : Json :=
  .obj [("ofType", .obj [("name", .null), ("ofType", jsonRef "OBJECT" "Post"), ("kind", .str "NON_NULL"),
      ("specifiedByURL", .null)]), ("kind", .str "LIST"), ("name", .null)]

/-- An introspection document as servers return it. -/
def jsonDoc : Json :=
  .obj [("extensions", .obj []), ("data", .obj [("__schema", .obj [
    ("queryType", .obj [("name", .str "Query")]),
    ("types", .arr [.obj [("kind", .str "OBJECT"), ("name", .str "Query"), ("description", .null),
      ("fields", .arr [.obj [("name", .str "posts"), ("description", .str "All posts"),
        ("args", .arr [.obj [("name", .str "first"), ("type", jsonRef "SCALAR" "Int")]]),
        ("type", jsonList), ("isDeprecated", .bool false), ("deprecationReason", .null)]]),
      ("inputFields", .null), ("interfaces", .arr []), ("enumValues", .null),
      ("possibleTypes", .null)]])])])]

/-- What qlc reads from it. -/
def jsonDocRead : JSchema :=
  ⟨[⟨"OBJECT", "Query", none, none, none,
    some [⟨"posts", some "All posts",
      .mk "LIST" none (some (.mk "NON_NULL" none (some (.mk "OBJECT" (some "Post") none)))),
      some false⟩], none⟩]⟩

example : decodeIntrospection jsonDoc = some jsonDocRead := by
  simp [decodeIntrospection, jsonDoc, jsonDocRead, Json.asStruct, structMembers, AMap.get?,
    AMap.insert, needed, decodeSchema, decodeType, Json.asVec, allSome, optional, Json.asStr,
    Json.asOption, decodeField, decodeFieldType, decodeFieldTypeMembers, jsonList, jsonRef,
    Json.asBool]

/-- The hypothesis of `C62_other_members_do_not_matter`: dropping `extensions`. -/
example : SameFor introspectionKeys jsonDoc
    (.obj (match jsonDoc with | .obj (_ :: ms) => ms | _ => [])) :=
  .obj _ _ fun k hk => by
    have : "extensions" ≠ k := by rintro rfl; revert hk; decide
    simp only [values]
    rw [List.filter_cons_of_neg (by simpa using this)]
    exact List.forall₂_same.2 fun _ _ => .refl _

/-- A document without `data` is rejected. -/
example : decodeIntrospection (.obj [("__schema", .obj [("types", .arr [])])]) = none := by decide +kernel

/-- A field whose type reference has no kind is rejected. -/
example : decodeField (.obj [("name", .str "a"), ("type", .obj [("name", .str "Int")])]) = none := by
  simp [decodeField, Json.asStruct, structMembers, AMap.get?, AMap.insert, needed, decodeFieldType,
    decodeFieldTypeMembers, Json.asStr, Json.asOption, optional]

/-- The configuration file of the README. -/
example : ∃ c, decodeConfig (.obj [("useCustomScalars", .bool true), ("numThreads", .nat 2)]) = some c
    ∧ c.useCustomScalars = some true ∧ c.numThreads = some 2 ∧ c.schemaPath = none :=
  ⟨_, rfl, rfl, rfl, rfl⟩

/-- A setting of the wrong type, or repeated, makes the file invalid. -/
example : decodeConfig (.obj [("numThreads", .str "2")]) = none ∧
    decodeConfig (.obj [("numThreads", .nat 2), ("numThreads", .nat 2)]) = none := by
  constructor <;> rfl

end Demo

end Qlc
