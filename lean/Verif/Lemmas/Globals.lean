import Verif.Spec.Globals
import Verif.Lemmas.Basic
import Mathlib.Tactic.Tauto
/-
Lemmas about collecting the global types.
-/
set_option autoImplicit false

namespace Qlc
open Spec

/-- The names found below a type. -/
inductive Under (schema : Schema) : SType → String → Prop where
  | here {t : SType} {f : SField} : InputFieldOf t f →
      f.type.definition = .enum ∨ f.type.definition = .inputObject → Under schema t f.type.name
  | deeper {t t' : SType} {n : String} : SubInput schema t' t → Under schema t' n → Under schema t n

/-- Something below the type is invalid. -/
inductive BadBelow (schema : Schema) : SType → Prop where
  | field {t : SType} {f : SField} : InputFieldOf t f → ¬ InputFieldAllowed f → BadBelow schema t
  | missing {t : SType} {f : SField} : InputFieldOf t f →
      f.type.definition = .enum ∨ f.type.definition = .inputObject →
      schema.getType f.type.name = none → BadBelow schema t
  | deeper {t t' : SType} : SubInput schema t' t → BadBelow schema t' → BadBelow schema t

/-- The map answers what the schema answers, and has no repeated keys. -/
structure GoodMap (schema : Schema) (m : NameToType) : Prop where
  agrees : ∀ k v, AMap.get? m k = some v → schema.getType k = some v
  nodup : m.keys.Nodup

theorem GoodMap.insert {schema : Schema} {m : NameToType} (h : GoodMap schema m) {n : String}
    {t : SType} (ht : schema.getType n = some t) : GoodMap schema (AMap.insert m n t) := by
  refine ⟨?_, AMap.nodup_keys_insert _ _ _ h.nodup⟩
  intro k v hk
  rw [AMap.get?_insert] at hk
  split at hk
  · rename_i e
    subst e
    injection hk with hk
    rw [← hk, ht]
  · exact h.agrees k v hk

/-- What a collecting function does for the subtypes it is called on. -/
def RecSpec (schema : Schema) (rec : SType → NameToType → Option (Except TsError NameToType)) : Prop :=
  ∀ t m, GoodMap schema m →
    (∀ m', rec t m = some (.ok m') → GoodMap schema m' ∧ ¬ BadBelow schema t ∧
      (∀ k, k ∈ m'.keys ↔ k ∈ m.keys ∨ Under schema t k)) ∧
    (∀ e, rec t m = some (.error e) → BadBelow schema t)

theorem addSubInputFields_spec (schema : Schema)
    (rec : SType → NameToType → Option (Except TsError NameToType)) (hrec : RecSpec schema rec)
    (fs : List SField) : ∀ m, GoodMap schema m →
    (∀ m', addSubInputFields schema rec fs m = some (.ok m') → GoodMap schema m' ∧
      (∀ f ∈ fs, InputFieldAllowed f ∧
        ((f.type.definition = .enum ∨ f.type.definition = .inputObject) →
          ∃ t', schema.getType f.type.name = some t' ∧
            (f.type.definition = .inputObject → ¬ BadBelow schema t'))) ∧
      (∀ k, k ∈ m'.keys ↔ k ∈ m.keys ∨ ∃ f ∈ fs,
        ((f.type.definition = .enum ∨ f.type.definition = .inputObject) ∧ k = f.type.name) ∨
        (f.type.definition = .inputObject ∧ ∃ t', schema.getType f.type.name = some t' ∧
          Under schema t' k))) ∧
    (∀ e, addSubInputFields schema rec fs m = some (.error e) → ∃ f ∈ fs,
      ¬ InputFieldAllowed f ∨
      ((f.type.definition = .enum ∨ f.type.definition = .inputObject) ∧
        schema.getType f.type.name = none) ∨
      (f.type.definition = .inputObject ∧ ∃ t', schema.getType f.type.name = some t' ∧
        BadBelow schema t')) := by
  induction fs with
  | nil =>
    intro m G
    refine ⟨?_, by simp [addSubInputFields]⟩
    intro m' h
    simp only [addSubInputFields, Option.some.injEq, Except.ok.injEq] at h
    subst h
    exact ⟨G, by simp, by simp⟩
  | cons f fs ih =>
    intro m G
    -- the effect of the head field
    have head : (∀ m1, addSubInputObjectField schema rec f.type f.name m = some (.ok m1) →
        GoodMap schema m1 ∧ InputFieldAllowed f ∧
        ((f.type.definition = .enum ∨ f.type.definition = .inputObject) →
          ∃ t', schema.getType f.type.name = some t' ∧
            (f.type.definition = .inputObject → ¬ BadBelow schema t')) ∧
        (∀ k, k ∈ m1.keys ↔ k ∈ m.keys ∨
          ((f.type.definition = .enum ∨ f.type.definition = .inputObject) ∧ k = f.type.name) ∨
          (f.type.definition = .inputObject ∧ ∃ t', schema.getType f.type.name = some t' ∧
            Under schema t' k))) ∧
      (∀ e, addSubInputObjectField schema rec f.type f.name m = some (.error e) →
        ¬ InputFieldAllowed f ∨
        ((f.type.definition = .enum ∨ f.type.definition = .inputObject) ∧
          schema.getType f.type.name = none) ∨
        (f.type.definition = .inputObject ∧ ∃ t', schema.getType f.type.name = some t' ∧
          BadBelow schema t')) := by
      unfold addSubInputObjectField
      cases hd : f.type.definition with
      | inputObject =>
        simp only
        cases ht : schema.getType f.type.name with
        | none =>
          refine ⟨by simp, ?_⟩
          intro e _
          exact .inr (.inl ⟨.inr trivial, rfl⟩)
        | some t =>
          obtain ⟨r1, r2⟩ := hrec t _ (G.insert ht)
          refine ⟨?_, ?_⟩
          · intro m1 h1
            obtain ⟨g1, g2, g3⟩ := r1 m1 h1
            refine ⟨g1, .inr (.inl hd), fun _ => ⟨t, rfl, fun _ => g2⟩, ?_⟩
            intro k
            rw [g3, AMap.mem_keys_insert]
            constructor
            · rintro ((rfl | h) | h)
              · exact .inr (.inl ⟨.inr trivial, rfl⟩)
              · exact .inl h
              · exact .inr (.inr ⟨trivial, t, rfl, h⟩)
            · rintro (h | ⟨_, rfl⟩ | ⟨_, t', ht', h⟩)
              · exact .inl (.inr h)
              · exact .inl (.inl rfl)
              · injection ht' with ht'
                subst ht'
                exact .inr h
          · intro e h1
            exact .inr (.inr ⟨trivial, t, rfl, r2 e h1⟩)
      | enum =>
        simp only
        cases ht : schema.getType f.type.name with
        | none =>
          refine ⟨by simp, ?_⟩
          intro e _
          exact .inr (.inl ⟨.inl trivial, rfl⟩)
        | some t =>
          refine ⟨?_, by simp⟩
          intro m1 h1
          simp only [Option.some.injEq, Except.ok.injEq] at h1
          subst h1
          refine ⟨G.insert ht, .inl hd, fun _ => ⟨t, rfl, by simp⟩, ?_⟩
          intro k
          rw [AMap.mem_keys_insert]
          simp only [true_or, true_and, reduceCtorEq, false_and, or_false]
          tauto
      | scalar s =>
        refine ⟨?_, by simp⟩
        intro m1 h1
        simp only [Option.some.injEq, Except.ok.injEq] at h1
        subst h1
        exact ⟨G, .inr (.inr ⟨s, hd⟩), by simp, by simp⟩
      | object =>
        refine ⟨by simp, fun e _ => .inl ?_⟩
        rintro (h | h | ⟨s, h⟩) <;> rw [hd] at h <;> simp at h
      | interface =>
        refine ⟨by simp, fun e _ => .inl ?_⟩
        rintro (h | h | ⟨s, h⟩) <;> rw [hd] at h <;> simp at h
      | union =>
        refine ⟨by simp, fun e _ => .inl ?_⟩
        rintro (h | h | ⟨s, h⟩) <;> rw [hd] at h <;> simp at h
      | typeName =>
        refine ⟨by simp, fun e _ => .inl ?_⟩
        rintro (h | h | ⟨s, h⟩) <;> rw [hd] at h <;> simp at h
    simp only [addSubInputFields]
    cases hh : addSubInputObjectField schema rec f.type f.name m with
    | none => simp
    | some r =>
      cases r with
      | error e =>
        refine ⟨by simp, ?_⟩
        intro e' he
        exact ⟨f, List.mem_cons_self .., head.2 e hh⟩
      | ok m1 =>
        obtain ⟨g1, g2, g3, g4⟩ := head.1 m1 hh
        obtain ⟨i1, i2⟩ := ih m1 g1
        simp only
        refine ⟨?_, ?_⟩
        · intro m' h
          obtain ⟨j1, j2, j3⟩ := i1 m' h
          refine ⟨j1, ?_, ?_⟩
          · intro f' hf'
            rcases List.mem_cons.1 hf' with rfl | hf'
            · exact ⟨g2, g3⟩
            · exact j2 f' hf'
          · intro k
            rw [j3, g4]
            simp only [List.mem_cons, exists_eq_or_imp]
            exact or_assoc
        · intro e he
          obtain ⟨f', hf', h⟩ := i2 e he
          exact ⟨f', List.mem_cons_of_mem _ hf', h⟩

theorem inputFieldOf_mem (ω : Hash) (site : List String) {t : SType} {name : String}
    {fields : FieldsLookup} (hd : t.definition = .inputObject name fields) (f : SField) :
    f ∈ ω.perm site (fields.map Prod.snd) ↔ InputFieldOf t f := by
  rw [(ω.isPerm site _).mem_iff, List.mem_map]
  constructor
  · rintro ⟨⟨k, f'⟩, h1, rfl⟩
    exact ⟨name, fields, k, hd, h1⟩
  · rintro ⟨name', fields', k, hd', h1⟩
    rw [hd] at hd'
    injection hd' with _ e
    subst e
    exact ⟨(k, f), h1, rfl⟩

theorem not_inputField {t : SType} (h : ∀ name fields, t.definition ≠ .inputObject name fields)
    (f : SField) : ¬ InputFieldOf t f := by
  rintro ⟨name, fields, _, hd, _⟩
  exact h name fields hd

theorem under_iff (schema : Schema) (t : SType) (k : String) :
    Under schema t k ↔ ∃ f, InputFieldOf t f ∧
      (((f.type.definition = .enum ∨ f.type.definition = .inputObject) ∧ k = f.type.name) ∨
        (f.type.definition = .inputObject ∧ ∃ t', schema.getType f.type.name = some t' ∧
          Under schema t' k)) := by
  constructor
  · intro h
    cases h with
    | here h1 h2 => exact ⟨_, h1, .inl ⟨h2, rfl⟩⟩
    | deeper h1 h2 =>
      obtain ⟨f, a, b, c⟩ := h1
      exact ⟨f, a, .inr ⟨b, _, c, h2⟩⟩
  · rintro ⟨f, h1, ⟨h2, rfl⟩ | ⟨h2, t', h3, h4⟩⟩
    · exact .here h1 h2
    · exact .deeper ⟨f, h1, h2, h3⟩ h4

theorem badBelow_iff (schema : Schema) (t : SType) :
    BadBelow schema t ↔ ∃ f, InputFieldOf t f ∧ (¬ InputFieldAllowed f ∨
      ((f.type.definition = .enum ∨ f.type.definition = .inputObject) ∧
        schema.getType f.type.name = none) ∨
      (f.type.definition = .inputObject ∧ ∃ t', schema.getType f.type.name = some t' ∧
        BadBelow schema t')) := by
  constructor
  · intro h
    cases h with
    | field h1 h2 => exact ⟨_, h1, .inl h2⟩
    | missing h1 h2 h3 => exact ⟨_, h1, .inr (.inl ⟨h2, h3⟩)⟩
    | deeper h1 h2 =>
      obtain ⟨f, a, b, c⟩ := h1
      exact ⟨f, a, .inr (.inr ⟨b, _, c, h2⟩)⟩
  · rintro ⟨f, h1, h2 | ⟨h2, h3⟩ | ⟨h2, t', h3, h4⟩⟩
    · exact .field h1 h2
    · exact .missing h1 h2 h3
    · exact .deeper ⟨f, h1, h2, h3⟩ h4

theorem addSubInputObjects_spec (ω : Hash) (schema : Schema) (n : Nat) :
    RecSpec schema (addSubInputObjects ω schema n) := by
  induction n with
  | zero => intro t m _; simp [addSubInputObjects]
  | succ n ih =>
    intro t m G
    have hother : (∀ name fields, t.definition ≠ .inputObject name fields) →
        addSubInputObjects ω schema (n + 1) t m = some (.ok m) := by
      intro h
      unfold addSubInputObjects
      cases hd : t.definition with
      | inputObject name fields => exact absurd hd (h name fields)
      | _ => rfl
    by_cases hin : ∃ name fields, t.definition = .inputObject name fields
    · obtain ⟨name, fields, hd⟩ := hin
      obtain ⟨h1, h2⟩ := addSubInputFields_spec schema (addSubInputObjects ω schema n) ih
        (ω.perm ["typescript.rs:154"] (fields.map Prod.snd)) m G
      have hmem := inputFieldOf_mem ω ["typescript.rs:154"] hd
      have hun : addSubInputObjects ω schema (n + 1) t m = addSubInputFields schema
          (addSubInputObjects ω schema n) (ω.perm ["typescript.rs:154"] (fields.map Prod.snd)) m := by
        simp only [addSubInputObjects, hd]
      rw [hun]
      refine ⟨?_, ?_⟩
      · intro m' h
        obtain ⟨a, b, c⟩ := h1 m' h
        refine ⟨a, ?_, ?_⟩
        · rw [badBelow_iff]
          rintro ⟨f, hf, hbad⟩
          obtain ⟨b1, b2⟩ := b f ((hmem f).2 hf)
          rcases hbad with hbad | ⟨hk, hnone⟩ | ⟨hk, t', ht', hbad⟩
          · exact hbad b1
          · obtain ⟨t', ht', _⟩ := b2 hk
            rw [hnone] at ht'; simp at ht'
          · obtain ⟨t'', ht'', hb⟩ := b2 (.inr hk)
            rw [ht'] at ht''
            injection ht'' with e
            subst e
            exact hb hk hbad
        · intro k
          rw [c, under_iff]
          simp only [hmem]
      · intro e he
        obtain ⟨f, hf, h⟩ := h2 e he
        rw [badBelow_iff]
        exact ⟨f, (hmem f).1 hf, h⟩
    · have hin' : ∀ name fields, t.definition ≠ .inputObject name fields :=
        fun name fields h => hin ⟨name, fields, h⟩
      rw [hother hin']
      refine ⟨?_, by simp⟩
      intro m' h
      simp only [Option.some.injEq, Except.ok.injEq] at h
      subst h
      refine ⟨G, ?_, ?_⟩
      · rw [badBelow_iff]
        rintro ⟨f, hf, _⟩
        exact not_inputField hin' f hf
      · intro k
        rw [under_iff]
        constructor
        · exact .inl
        · rintro (h | ⟨f, hf, _⟩)
          · exact h
          · exact absurd hf (not_inputField hin' f)

theorem globalNameLoop_spec (ω : Hash) (fuel : Nat) (schema : Schema) (names : List String) :
    ∀ m, GoodMap schema m →
    (∀ m', globalNameLoop ω fuel schema names m = some (.ok m') → GoodMap schema m' ∧
      (∀ u ∈ names, ∃ t, schema.getType u = some t ∧ ¬ BadBelow schema t) ∧
      (∀ k, k ∈ m'.keys ↔ k ∈ m.keys ∨ k ∈ names ∨
        ∃ u ∈ names, ∃ t, schema.getType u = some t ∧ Under schema t k)) ∧
    (∀ e, globalNameLoop ω fuel schema names m = some (.error e) →
      ∃ u ∈ names, schema.getType u = none ∨ ∃ t, schema.getType u = some t ∧ BadBelow schema t) := by
  induction names with
  | nil =>
    intro m G
    refine ⟨?_, by simp [globalNameLoop]⟩
    intro m' h
    simp only [globalNameLoop, Option.some.injEq, Except.ok.injEq] at h
    subst h
    exact ⟨G, by simp, by simp⟩
  | cons u names ih =>
    intro m G
    simp only [globalNameLoop]
    cases ht : schema.getType u with
    | none =>
      refine ⟨by simp, fun e _ => ⟨u, List.mem_cons_self .., .inl ht⟩⟩
    | some t =>
      simp only
      obtain ⟨r1, r2⟩ := addSubInputObjects_spec ω schema fuel t m G
      cases hr : addSubInputObjects ω schema fuel t m with
      | none => simp
      | some r =>
        cases r with
        | error e =>
          refine ⟨by simp, fun _ _ => ⟨u, List.mem_cons_self .., .inr ⟨t, ht, r2 e hr⟩⟩⟩
        | ok m1 =>
          obtain ⟨g1, g2, g3⟩ := r1 m1 hr
          obtain ⟨i1, i2⟩ := ih _ (g1.insert ht)
          simp only
          refine ⟨?_, ?_⟩
          · intro m' h
            obtain ⟨j1, j2, j3⟩ := i1 m' h
            refine ⟨j1, ?_, ?_⟩
            · intro v hv
              rcases List.mem_cons.1 hv with rfl | hv
              · exact ⟨t, ht, g2⟩
              · exact j2 v hv
            · intro k
              rw [j3, AMap.mem_keys_insert, g3]
              simp only [List.mem_cons, exists_eq_or_imp]
              constructor
              · rintro ((rfl | h | h) | h | h)
                · exact .inr (.inl (.inl rfl))
                · exact .inl h
                · exact .inr (.inr (.inl ⟨t, ht, h⟩))
                · exact .inr (.inl (.inr h))
                · exact .inr (.inr (.inr h))
              · rintro (h | (rfl | h) | ⟨t', ht', h⟩ | h)
                · exact .inl (.inr (.inl h))
                · exact .inl (.inl rfl)
                · exact .inr (.inl h)
                · rw [ht] at ht'
                  injection ht' with e
                  subst e
                  exact .inl (.inr (.inr h))
                · exact .inr (.inr h)
          · intro e he
            obtain ⟨v, hv, h⟩ := i2 e he
            exact ⟨v, List.mem_cons_of_mem _ hv, h⟩

/-! ### Spec-level reachability -/

theorem expanded_under {schema : Schema} {used : List String} {t : SType}
    (h : Expanded schema used t) : ∀ {n : String}, Under schema t n →
    ∃ u ∈ used, ∃ t0, schema.getType u = some t0 ∧ Under schema t0 n := by
  induction h with
  | used hu ht => intro n hn; exact ⟨_, hu, _, ht, hn⟩
  | sub _ hs ih => intro n hn; exact ih (.deeper hs hn)

theorem under_global {schema : Schema} {used : List String} {t : SType} {n : String}
    (h : Under schema t n) : Expanded schema used t → GlobalName schema used n := by
  induction h with
  | here h1 h2 => intro he; exact .field he h1 h2
  | deeper h1 _ ih => intro he; exact ih (.sub he h1)

theorem globalName_iff (schema : Schema) (used : List String) (n : String) :
    GlobalName schema used n ↔ n ∈ used ∨
      ∃ u ∈ used, ∃ t, schema.getType u = some t ∧ Under schema t n := by
  constructor
  · intro h
    cases h with
    | used h => exact .inl h
    | field h1 h2 h3 => exact .inr (expanded_under h1 (.here h2 h3))
  · rintro (h | ⟨u, hu, t, ht, h⟩)
    · exact .used h
    · exact under_global h (.used hu ht)

theorem expanded_bad {schema : Schema} {used : List String} {t : SType}
    (h : Expanded schema used t) : BadBelow schema t →
    ∃ u ∈ used, ∃ t0, schema.getType u = some t0 ∧ BadBelow schema t0 := by
  induction h with
  | used hu ht => intro hb; exact ⟨_, hu, _, ht, hb⟩
  | sub _ hs ih => intro hb; exact ih (.deeper hs hb)

theorem bad_invalid {schema : Schema} {used : List String} {t : SType} (hb : BadBelow schema t) :
    ∀ n, GlobalName schema used n → schema.getType n = some t → Expanded schema used t →
      ∃ m, GlobalName schema used m ∧ ¬ ValidGlobal schema m := by
  induction hb with
  | field h1 h2 =>
    rename_i t f
    intro n hn ht _
    refine ⟨n, hn, ?_⟩
    rintro ⟨t', ht', _, hall⟩
    rw [ht] at ht'
    injection ht' with e
    subst e
    exact h2 (hall f h1)
  | missing h1 h2 h3 =>
    intro n hn ht he
    refine ⟨_, .field he h1 h2, ?_⟩
    rintro ⟨t', ht', _⟩
    rw [h3] at ht'; simp at ht'
  | deeper h1 _ ih =>
    intro n hn ht he
    have h1' := h1
    obtain ⟨f, a, b, c⟩ := h1
    exact ih f.type.name (.field he a (.inr b)) c (.sub he h1')

/-! ### Termination -/

theorem addSubInputFields_isSome (schema : Schema)
    (rec : SType → NameToType → Option (Except TsError NameToType)) (fs : List SField)
    (h : ∀ f ∈ fs, f.type.definition = .inputObject → ∀ t', schema.getType f.type.name = some t' →
      ∀ m, (rec t' m).isSome) : ∀ m, (addSubInputFields schema rec fs m).isSome := by
  induction fs with
  | nil => intro m; simp [addSubInputFields]
  | cons f fs ih =>
    intro m
    have hh : (addSubInputObjectField schema rec f.type f.name m).isSome := by
      unfold addSubInputObjectField
      cases hd : f.type.definition with
      | inputObject =>
        simp only
        cases ht : schema.getType f.type.name with
        | none => simp
        | some t => exact h f (List.mem_cons_self ..) hd t ht _
      | enum => simp only; cases schema.getType f.type.name <;> simp
      | _ => simp
    simp only [addSubInputFields]
    cases hr : addSubInputObjectField schema rec f.type f.name m with
    | none => rw [hr] at hh; simp at hh
    | some r =>
      cases r with
      | error e => simp
      | ok m1 => exact ih (fun f' hf' => h f' (List.mem_cons_of_mem _ hf')) m1

theorem exists_bound {α : Type} (l : List α) (P : α → Nat → Prop)
    (hmono : ∀ a n m, P a n → n ≤ m → P a m) (h : ∀ a ∈ l, ∃ n, P a n) : ∃ n, ∀ a ∈ l, P a n := by
  induction l with
  | nil => exact ⟨0, by simp⟩
  | cons a l ih =>
    obtain ⟨n1, h1⟩ := h a (List.mem_cons_self ..)
    obtain ⟨n2, h2⟩ := ih (fun b hb => h b (List.mem_cons_of_mem _ hb))
    refine ⟨max n1 n2, ?_⟩
    intro b hb
    rcases List.mem_cons.1 hb with rfl | hb
    · exact hmono _ _ _ h1 (Nat.le_max_left ..)
    · exact hmono _ _ _ (h2 b hb) (Nat.le_max_right ..)

theorem addSub_terminates (ω : Hash) (schema : Schema) (t : SType) (h : Acc (SubInput schema) t) :
    ∃ N, ∀ n, N ≤ n → ∀ m, (addSubInputObjects ω schema n t m).isSome := by
  induction h with
  | intro t _ ih =>
    by_cases hin : ∃ name fields, t.definition = .inputObject name fields
    · obtain ⟨name, fields, hd⟩ := hin
      obtain ⟨N, hN⟩ := exists_bound (ω.perm ["typescript.rs:154"] (fields.map Prod.snd))
        (fun f N => f.type.definition = .inputObject → ∀ t', schema.getType f.type.name = some t' →
          ∀ n, N ≤ n → ∀ m, (addSubInputObjects ω schema n t' m).isSome)
        (fun f a b hP hab hk t' ht' n hn m => hP hk t' ht' n (by omega) m)
        (by
          intro f hf
          by_cases hk : f.type.definition = .inputObject
          · cases ht : schema.getType f.type.name with
            | none => exact ⟨0, by simp⟩
            | some t' =>
              obtain ⟨N, hN⟩ := ih t' ⟨f, (inputFieldOf_mem ω _ hd f).1 hf, hk, ht⟩
              refine ⟨N, ?_⟩
              intro _ t'' ht''
              injection ht'' with e
              subst e
              exact hN
          · exact ⟨0, fun h => absurd h hk⟩)
      refine ⟨N + 1, ?_⟩
      intro n hn m
      match n, hn with
      | n + 1, hn =>
        simp only [addSubInputObjects, hd]
        exact addSubInputFields_isSome schema _ _ (fun f hf hk t' ht' m =>
          hN f hf hk t' ht' n (by omega) m) m
    · refine ⟨1, ?_⟩
      intro n hn m
      match n, hn with
      | n + 1, _ =>
        unfold addSubInputObjects
        cases hd : t.definition with
        | inputObject name fields => exact absurd ⟨name, fields, hd⟩ hin
        | _ => rfl

theorem globalNameLoop_isSome (ω : Hash) (fuel : Nat) (schema : Schema) (names : List String)
    (h : ∀ u ∈ names, ∀ t, schema.getType u = some t → ∀ m, (addSubInputObjects ω schema fuel t m).isSome) :
    ∀ m, (globalNameLoop ω fuel schema names m).isSome := by
  induction names with
  | nil => intro m; simp [globalNameLoop]
  | cons u names ih =>
    intro m
    simp only [globalNameLoop]
    cases ht : schema.getType u with
    | none => simp
    | some t =>
      simp only
      have hh := h u (List.mem_cons_self ..) t ht m
      cases hr : addSubInputObjects ω schema fuel t m with
      | none => rw [hr] at hh; simp at hh
      | some r =>
        cases r with
        | error e => simp
        | ok m1 => exact ih (fun v hv => h v (List.mem_cons_of_mem _ hv)) _

theorem addSubInputFields_ok_calls (schema : Schema)
    (rec : SType → NameToType → Option (Except TsError NameToType)) (fs : List SField) :
    ∀ m m', addSubInputFields schema rec fs m = some (.ok m') →
    ∀ f ∈ fs, f.type.definition = .inputObject → ∀ t', schema.getType f.type.name = some t' →
      ∃ m1 m2, rec t' m1 = some (.ok m2) := by
  induction fs with
  | nil => intro m m' _ f hf; simp at hf
  | cons g fs ih =>
    intro m m' h f hf hk t' ht'
    simp only [addSubInputFields] at h
    cases hr : addSubInputObjectField schema rec g.type g.name m with
    | none => simp [hr] at h
    | some r =>
      cases r with
      | error e => simp [hr] at h
      | ok m1 =>
        simp only [hr] at h
        rcases List.mem_cons.1 hf with rfl | hf
        · unfold addSubInputObjectField at hr
          simp only [hk, ht'] at hr
          exact ⟨_, _, hr⟩
        · exact ih m1 m' h f hf hk t' ht'

theorem addSub_ok_acc (ω : Hash) (schema : Schema) (n : Nat) : ∀ t m m',
    addSubInputObjects ω schema n t m = some (.ok m') → Acc (SubInput schema) t := by
  induction n with
  | zero => intro t m m' h; simp [addSubInputObjects] at h
  | succ n ih =>
    intro t m m' h
    constructor
    rintro t' ⟨f, hf, hk, ht'⟩
    have hf' := hf
    obtain ⟨name, fields, key, hd, _⟩ := hf
    simp only [addSubInputObjects, hd] at h
    obtain ⟨m1, m2, h2⟩ := addSubInputFields_ok_calls schema _ _ m m' h f
      ((inputFieldOf_mem ω _ hd f).2 hf') hk t' ht'
    exact ih t' m1 m2 h2

theorem globalNameLoop_ok_acc (ω : Hash) (fuel : Nat) (schema : Schema) (names : List String) :
    ∀ m m', globalNameLoop ω fuel schema names m = some (.ok m') →
    ∀ u ∈ names, ∀ t, schema.getType u = some t → Acc (SubInput schema) t := by
  induction names with
  | nil => intro m m' _ u hu; simp at hu
  | cons v names ih =>
    intro m m' h u hu t ht
    simp only [globalNameLoop] at h
    cases ht0 : schema.getType v with
    | none => simp [ht0] at h
    | some t0 =>
      simp only [ht0] at h
      cases hr : addSubInputObjects ω schema fuel t0 m with
      | none => simp [hr] at h
      | some r =>
        cases r with
        | error e => simp [hr] at h
        | ok m1 =>
          simp only [hr] at h
          rcases List.mem_cons.1 hu with rfl | hu
          · rw [ht0] at ht
            injection ht with e
            subst e
            exact addSub_ok_acc ω schema fuel t0 m m1 hr
          · exact ih _ _ h u hu t ht

end Qlc
