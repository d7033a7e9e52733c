import Verif.Lemmas.Inhabit
/-
Boolean checks for concrete documents and values, with their soundness.  Used by examples only.
-/
set_option autoImplicit false

namespace Qlc
open Spec

/-! ### Valid introspection documents -/

theorem lastNamed_mem {α : Type} {name : α → String} {n : String} {l : List α} {a : α}
    (h : lastNamed name n l = some a) : a ∈ l ∧ name a = n := lastNamed_name h

theorem typeNamed_mem {doc : JSchema} {n : String} {j : JType} (h : typeNamed doc n = some j) :
    n ∈ doc.types.map JType.name := by
  obtain ⟨h1, h2⟩ := lastNamed_mem h
  exact List.mem_map.2 ⟨j, h1, h2⟩

theorem declared_mem {doc : JSchema} {P : String} {f : JField} (h : f ∈ declaredFields doc P) :
    P ∈ doc.types.map JType.name := by
  unfold declaredFields at h
  cases hj : typeNamed doc P with
  | none => rw [hj] at h; simp at h
  | some j => exact typeNamed_mem hj

theorem objectTypes_mem {doc : JSchema} {P T : String} (h : T ∈ objectTypes doc P) :
    P ∈ doc.types.map JType.name := by
  unfold objectTypes at h
  cases hj : typeNamed doc P with
  | none => rw [hj] at h; simp at h
  | some j => exact typeNamed_mem hj

theorem fieldType_mem {doc : JSchema} {P name k : String} {t : VarTy} (h : fieldType doc P name = some (k, t)) :
    ∃ f ∈ declaredFields doc P, f.name = name := by
  unfold fieldType at h
  cases hl : lastNamed JField.name name (declaredFields doc P) with
  | none => rw [hl] at h; simp at h
  | some f => exact ⟨f, lastNamed_mem hl⟩

def compositeNamedB (doc : JSchema) (n : String) : Bool :=
  match kindNamed doc n with
  | some k => decide (CompositeKind k)
  | none => false

theorem compositeNamedB_sound {doc : JSchema} {n : String} (h : compositeNamedB doc n = true) :
    CompositeNamed doc n := by
  unfold compositeNamedB at h
  split at h
  · exact ⟨_, ‹_›, by simpa using h⟩
  · simp at h

def subTyB (doc : JSchema) : VarTy → VarTy → Bool
  | .named A, .named B => decide (A = B) || (compositeNamedB doc A && compositeNamedB doc B &&
      (objectTypes doc A).all (fun T => decide (T ∈ objectTypes doc B)))
  | .list a, .list b => subTyB doc a b
  | .nonNull a, .nonNull b => subTyB doc a b
  | .nonNull a, .named B => subTyB doc a (.named B)
  | .nonNull a, .list b => subTyB doc a (.list b)
  | _, _ => false

theorem subTyB_sound {doc : JSchema} : ∀ (a b : VarTy), subTyB doc a b = true → SubTy doc a b
  | .named A, .named B, h => by
    simp only [subTyB, Bool.or_eq_true, decide_eq_true_eq, Bool.and_eq_true, List.all_eq_true] at h
    rcases h with h | ⟨⟨h1, h2⟩, h3⟩
    · exact .inl h
    · exact .inr ⟨compositeNamedB_sound h1, compositeNamedB_sound h2, h3⟩
  | .list a, .list b, h => by
    simp only [subTyB] at h
    simp only [SubTy]; exact subTyB_sound a b h
  | .nonNull a, .nonNull b, h => by
    simp only [subTyB] at h
    simp only [SubTy]; exact subTyB_sound a b h
  | .nonNull a, .named B, h => by
    simp only [subTyB] at h
    simp only [SubTy]; exact subTyB_sound a _ h
  | .nonNull a, .list b, h => by
    simp only [subTyB] at h
    simp only [SubTy]; exact subTyB_sound a _ h
  | .named _, .list _, h => by simp [subTyB] at h
  | .named _, .nonNull _, h => by simp [subTyB] at h
  | .list _, .named _, h => by simp [subTyB] at h
  | .list _, .nonNull _, h => by simp [subTyB] at h

def wellFormedB : VarTy → Bool
  | .named _ => true
  | .list t => wellFormedB t
  | .nonNull (.nonNull _) => false
  | .nonNull (.named _) => true
  | .nonNull (.list t) => wellFormedB (.list t)

theorem wellFormedB_sound : ∀ (t : VarTy), wellFormedB t = true → WellFormed t
  | .named _, _ => trivial
  | .list t, h => by simp only [wellFormedB] at h; simp only [WellFormed]; exact wellFormedB_sound t h
  | .nonNull (.nonNull _), h => by simp [wellFormedB] at h
  | .nonNull (.named _), _ => trivial
  | .nonNull (.list t), h => by
    simp only [wellFormedB] at h; simp only [WellFormed]; exact wellFormedB_sound t h

def validDocB (doc : JSchema) : Bool :=
  (doc.types.map JType.name).all (fun P =>
    (declaredFields doc P).all (fun f =>
      decide (f.name ≠ "__typename") &&
      match refType f.typeInformation with
      | some (k, t) => wellFormedB t && decide (SelectableKind k) && decide (kindNamed doc (baseName t) = some k)
      | none => false) &&
    (objectTypes doc P).all (fun T => decide (kindNamed doc T = some "OBJECT") &&
      (declaredFields doc P).all (fun f =>
        match fieldType doc P f.name with
        | none => true
        | some (_, t) =>
          match fieldType doc T f.name with
          | some (_, t') => subTyB doc t' t
          | none => false))) &&
  decide (kindNamed doc "__typename" = none)

theorem validDocB_sound {doc : JSchema} (h : validDocB doc = true) : ValidDoc doc := by
  unfold validDocB at h
  rw [Bool.and_eq_true, List.all_eq_true, decide_eq_true_eq] at h
  obtain ⟨h, hr⟩ := h
  have h1 : ∀ P, ∀ f ∈ declaredFields doc P, f.name ≠ "__typename" ∧
      ∃ k t, refType f.typeInformation = some (k, t) ∧ WellFormed t ∧ SelectableKind k ∧
        kindNamed doc (baseName t) = some k := by
    intro P f hf
    have hP := h P (declared_mem hf)
    rw [Bool.and_eq_true, List.all_eq_true] at hP
    have := hP.1 f hf
    rw [Bool.and_eq_true, decide_eq_true_eq] at this
    refine ⟨this.1, ?_⟩
    have h2 := this.2
    split at h2
    · rename_i k t e
      simp only [Bool.and_eq_true, decide_eq_true_eq] at h2
      exact ⟨k, t, e, wellFormedB_sound t h2.1.1, h2.1.2, h2.2⟩
    · simp at h2
  have h3 : ∀ P, ∀ T ∈ objectTypes doc P, kindNamed doc T = some "OBJECT" ∧
      ∀ f ∈ declaredFields doc P, ∀ k t, fieldType doc P f.name = some (k, t) →
        ∃ k' t', fieldType doc T f.name = some (k', t') ∧ SubTy doc t' t := by
    intro P T hT
    have hP := h P (objectTypes_mem hT)
    rw [Bool.and_eq_true, List.all_eq_true, List.all_eq_true] at hP
    have := hP.2 T hT
    rw [Bool.and_eq_true, decide_eq_true_eq, List.all_eq_true] at this
    refine ⟨this.1, ?_⟩
    intro f hf k t e
    have h4 := this.2 f hf
    rw [e] at h4
    simp only at h4
    split at h4
    · rename_i k' t' e'
      exact ⟨k', t', e', subTyB_sound _ _ h4⟩
    · simp at h4
  refine ⟨fun P f hf => (h1 P f hf).2, fun P f hf => (h1 P f hf).1, hr, fun P T hT => (h3 P T hT).1, ?_⟩
  intro P T hT name k t e
  obtain ⟨f, hf, rfl⟩ := fieldType_mem e
  exact (h3 P T hT).2 f hf k t e

def noBadListB (doc : JSchema) : Bool :=
  (doc.types.map JType.name).all (fun P => (declaredFields doc P).all (fun f =>
    match fieldType doc P f.name with
    | some (_, t) => !hasNonNullListInNullableList false t
    | none => true))

theorem noBadListB_sound {doc : JSchema} (h : noBadListB doc = true) : NoNonNullListInNullableList doc := by
  intro P name k t e
  obtain ⟨f, hf, rfl⟩ := fieldType_mem e
  unfold noBadListB at h
  rw [List.all_eq_true] at h
  have := h P (declared_mem hf)
  rw [List.all_eq_true] at this
  have := this f hf
  rw [e] at this
  simpa using this

/-- A property of the object types of a document. -/
def objectTypesB (q : String → Bool) (doc : JSchema) : Bool :=
  (doc.types.map JType.name).all (fun P => (objectTypes doc P).all q)

theorem objectTypesB_sound {q : String → Bool} {doc : JSchema} (h : objectTypesB q doc = true) :
    ∀ P, ∀ T ∈ objectTypes doc P, q T = true := by
  intro P T hT
  unfold objectTypesB at h
  rw [List.all_eq_true] at h
  have := h P (objectTypes_mem hT)
  rw [List.all_eq_true] at this
  exact this T hT

/-! ### Names declared elsewhere -/

def generatedB (main n : String) : Bool := (main.toList).isPrefixOf n.toList

theorem generatedB_sound {main n : String} (h : generatedB main n = false) : ¬ Generated main n := by
  unfold generatedB at h
  have h' : ¬ main.toList <+: n.toList := by
    rw [← List.isPrefixOf_iff_prefix, h]; simp
  rintro (rfl | ⟨s, rfl⟩)
  · exact h' (List.prefix_refl _)
  · exact h' (by rw [String.toList_append, String.toList_append, List.append_assoc]; exact List.prefix_append _ _)

def outsideB (q : String → Bool) (cfg : TsConfig) (doc : JSchema) : Bool :=
  ["string", "number", "boolean", "any"].all q &&
  (doc.types.map JType.name).all (fun n =>
    (if kindNamed doc n = some "ENUM" then q n else true) &&
    (if kindNamed doc n = some "SCALAR" then
      match cfg.bottomTypeConfig with
      | .defaultBottomType => true
      | .realName => q n
      | .realNameWithPrefix p => q (p ++ n)
    else true))

theorem kindNamed_mem {doc : JSchema} {n k : String} (h : kindNamed doc n = some k) :
    n ∈ doc.types.map JType.name := by
  unfold kindNamed at h
  cases hj : typeNamed doc n with
  | none => rw [hj] at h; simp at h
  | some j => exact typeNamed_mem hj

theorem outsideB_sound {q : String → Bool} {cfg : TsConfig} {doc : JSchema} (h : outsideB q cfg doc = true) :
    ∀ n, Outside cfg doc n → q n = true := by
  unfold outsideB at h
  rw [Bool.and_eq_true, List.all_eq_true, List.all_eq_true] at h
  rintro n (hn | hn | ⟨s, hs, hn⟩)
  · exact h.1 n hn
  · have := h.2 n (kindNamed_mem hn)
    rw [Bool.and_eq_true, if_pos hn] at this
    exact this.1
  · have := h.2 s (kindNamed_mem hs)
    rw [Bool.and_eq_true, if_pos hs] at this
    have := this.2
    cases hb : cfg.bottomTypeConfig <;> rw [hb] at this hn <;> simp only at this hn
    · rw [hn]; exact this
    · rw [hn]; exact this

/-! ### Trees -/

/-- `q` holds at every nested position, down to the given depth, below which there must be nothing. -/
def everywhere (q : List Complex → Bool) : Nat → List Complex → Bool
  | 0, _ => false
  | n + 1, ps => q ps && ps.all (fun c => c.fields.all (fun f =>
      match f.type with
      | .complex sub => everywhere q n sub
      | _ => true))

theorem everywhere_sound {q : List Complex → Bool} {n : Nat} {ps : List Complex}
    (h : everywhere q n ps = true) : ∀ qs, Under ps qs → q qs = true := by
  have key : ∀ qs, Under ps qs → ∃ m, everywhere q m qs = true := by
    intro qs hu
    induction hu with
    | refl => exact ⟨n, h⟩
    | @step qs T fields fld sub _ hm hf hty ih =>
      obtain ⟨m, hq⟩ := ih
      cases m with
      | zero => simp [everywhere] at hq
      | succ m =>
        rw [everywhere, Bool.and_eq_true, List.all_eq_true] at hq
        have := hq.2 _ hm
        rw [List.all_eq_true] at this
        have := this fld hf
        rw [hty] at this
        exact ⟨m, this⟩
  intro qs hu
  obtain ⟨m, hq⟩ := key qs hu
  cases m with
  | zero => simp [everywhere] at hq
  | succ m => rw [everywhere, Bool.and_eq_true] at hq; exact hq.1

/-- The alternatives with the same property names have the same bodies. -/
def sameHere (ps : List Complex) : Bool :=
  ps.all (fun c => ps.all (fun d =>
    !((c.fields.map IRField.propName).all (fun x => decide (x ∈ d.fields.map IRField.propName)) &&
      (d.fields.map IRField.propName).all (fun x => decide (x ∈ c.fields.map IRField.propName))) ||
    sameFields c.fields d.fields))

theorem sameBodies_of_check {n : Nat} {ps : List Complex} (h : everywhere sameHere n ps = true) :
    SameBodies ps := by
  intro qs hu T fields T' fields' hm hm' hs
  have := everywhere_sound h qs hu
  unfold sameHere at this
  rw [List.all_eq_true] at this
  have := this _ hm
  rw [List.all_eq_true] at this
  have := this _ hm'
  rw [Bool.or_eq_true, Bool.not_eq_true'] at this
  rcases this with h' | h'
  · exfalso
    have : ¬ ((List.all (List.map IRField.propName fields)
        (fun x => decide (x ∈ List.map IRField.propName fields')) &&
      List.all (List.map IRField.propName fields')
        (fun x => decide (x ∈ List.map IRField.propName fields))) = true) := by
      rw [Bool.not_eq_true]; exact h'
    apply this
    rw [Bool.and_eq_true, List.all_eq_true, List.all_eq_true]
    exact ⟨fun x hx => by rw [decide_eq_true_eq]; exact (hs x).1 hx,
      fun x hx => by rw [decide_eq_true_eq]; exact (hs x).2 hx⟩
  · exact h'

def oneTypenameHere (ps : List Complex) : Bool :=
  ps.all (fun c => c.fields.all (fun f => c.fields.all (fun g =>
    match f.type, g.type with
    | .typeName, .typeName => decide (f.propName = g.propName)
    | _, _ => true)))

theorem oneTypename_of_check {n : Nat} {ps : List Complex} (h : everywhere oneTypenameHere n ps = true) :
    OneTypename ps := by
  intro qs hu T fields hm f hf g hg hft hgt
  have := everywhere_sound h qs hu
  unfold oneTypenameHere at this
  rw [List.all_eq_true] at this
  have := this _ hm
  rw [List.all_eq_true] at this
  have := this f hf
  rw [List.all_eq_true] at this
  have := this g hg
  rw [hft, hgt] at this
  simpa using this

def propsHere (ps : List Complex) : Bool := ps.all (fun c => decide (c.fields.map IRField.propName).Nodup)

theorem propsNodup_of_check {n : Nat} {ps : List Complex} (h : everywhere propsHere n ps = true) :
    PropsNodup ps := by
  intro qs hu T fields hm
  have := everywhere_sound h qs hu
  unfold propsHere at this
  rw [List.all_eq_true] at this
  exact of_decide_eq_true (this _ hm)

def altsHere (ps : List Complex) : Bool := decide (ps.map Complex.name).Nodup

theorem altsNodup_of_check {n : Nat} {ps : List Complex} (h : everywhere altsHere n ps = true) :
    AltsNodup ps := fun qs hu => by simpa [altsHere] using everywhere_sound h qs hu

def plainHere (ps : List Complex) : Bool :=
  ps.all (fun c => decide (Plain c.name) && c.fields.all (fun f =>
    match f.type with
    | .complex _ => decide (Plain f.propName)
    | _ => true))

theorem plainNames_of_check {n : Nat} {ps : List Complex} (h : everywhere plainHere n ps = true) :
    PlainNames ps := by
  intro qs hu T fields hm
  have := everywhere_sound h qs hu
  unfold plainHere at this
  rw [List.all_eq_true] at this
  have := this _ hm
  rw [Bool.and_eq_true, decide_eq_true_eq, List.all_eq_true] at this
  refine ⟨this.1, ?_⟩
  rintro f hf ⟨sub, hty⟩
  have := this.2 f hf
  rw [hty] at this
  simpa using this

def readableHere (cfg : TsConfig) (main : String) (ps : List Complex) : Bool :=
  ps.all (fun c => decide (IsName c.name) && c.fields.all (fun f =>
    match f.type with
    | .complex _ => decide (IsName f.propName)
    | .enum n => decide (IsTypeName n) && !generatedB main n
    | .scalar s => decide (IsTypeName (scalarFlat cfg s).text) && !generatedB main (scalarFlat cfg s).text
    | .typeName => decide (f.last = .none) && f.rest.isEmpty))

theorem readable_of_check {cfg : TsConfig} {main : String} {n : Nat} {ps : List Complex}
    (h : everywhere (readableHere cfg main) n ps = true) : Readable cfg main ps := by
  intro qs hu T fields hm
  have := everywhere_sound h qs hu
  unfold readableHere at this
  rw [List.all_eq_true] at this
  have := this _ hm
  rw [Bool.and_eq_true, decide_eq_true_eq, List.all_eq_true] at this
  refine ⟨this.1, ?_⟩
  intro f hf
  have := this.2 f hf
  cases hty : f.type with
  | complex sub => rw [hty] at this; simpa using this
  | enum m =>
    rw [hty] at this
    simp only [Bool.and_eq_true, decide_eq_true_eq, Bool.not_eq_true'] at this
    exact ⟨this.1, generatedB_sound this.2⟩
  | scalar s =>
    rw [hty] at this
    simp only [Bool.and_eq_true, decide_eq_true_eq, Bool.not_eq_true'] at this
    exact ⟨this.1, generatedB_sound this.2⟩
  | typeName =>
    rw [hty] at this
    simpa using this

/-! ### Answers -/

section
variable (doc : JSchema) (frags : Frags) (appliesB : List Directive → Bool)

def condB (T : String) : Option String → Bool
  | none => true
  | some C => decide (T ∈ objectTypes doc C)

/-- GraphQL's CollectFields; `none` if out of fuel or if a fragment is missing. -/
def collectB (T : String) : Nat → List Selection → Option (List Wanted)
  | 0, _ => none
  | _ + 1, [] => some []
  | n + 1, .field _ al name _ dirs items :: rest =>
    if appliesB dirs then (collectB T n rest).map (⟨al.getD name, name, items⟩ :: ·) else collectB T n rest
  | n + 1, .inline _ cond dirs items :: rest =>
    if appliesB dirs then
      if condB doc T cond then
        (collectB T n items).bind (fun L₁ => (collectB T n rest).map (L₁ ++ ·))
      else collectB T n rest
    else collectB T n rest
  | n + 1, .spread _ name dirs :: rest =>
    if appliesB dirs then
      match AMap.get? frags name with
      | none => none
      | some fd =>
        if T ∈ objectTypes doc fd.typeCond then
          (collectB T n fd.items).bind (fun L₁ => (collectB T n rest).map (L₁ ++ ·))
        else collectB T n rest
    else collectB T n rest

theorem collectB_sound {T : String} : ∀ (n : Nat) (items : List Selection) (L : List Wanted),
    collectB doc frags appliesB T n items = some L →
    Collect doc frags (fun d => appliesB d = true) T items L := by
  intro n
  induction n with
  | zero => intro items L h; simp [collectB] at h
  | succ n ih =>
    intro items L h
    cases items with
    | nil => simp only [collectB, Option.some.injEq] at h; subst h; exact .nil
    | cons sel rest =>
      cases sel with
      | field pos al name args dirs items =>
        simp only [collectB] at h
        split at h
        · cases hr : collectB doc frags appliesB T n rest with
          | none => rw [hr] at h; simp at h
          | some L' =>
            rw [hr] at h
            simp only [Option.map_some, Option.some.injEq] at h
            subst h
            exact .field ‹_› (ih _ _ hr)
        · exact .leftOutField ‹_› (ih _ _ h)
      | «inline» pos cond dirs items =>
        simp only [collectB] at h
        split at h
        · split at h
          · rename_i ha hc
            cases h1 : collectB doc frags appliesB T n items with
            | none => rw [h1] at h; simp at h
            | some L₁ =>
              cases hr : collectB doc frags appliesB T n rest with
              | none => rw [h1, hr] at h; simp at h
              | some L' =>
                rw [h1, hr] at h
                simp only [Option.bind_some, Option.map_some, Option.some.injEq] at h
                subst h
                refine .inline ha ?_ (ih _ _ h1) (ih _ _ hr)
                rintro C rfl
                simpa [condB] using hc
          · rename_i ha hc
            cases cond with
            | none => simp [condB] at hc
            | some C => exact .otherInline ha (by simpa [condB] using hc) (ih _ _ h)
        · exact .leftOutInline ‹_› (ih _ _ h)
      | spread pos name dirs =>
        simp only [collectB] at h
        split at h
        · rename_i ha
          cases hg : AMap.get? frags name with
          | none => rw [hg] at h; simp at h
          | some fd =>
            rw [hg] at h
            simp only at h
            split at h
            · rename_i hT
              cases h1 : collectB doc frags appliesB T n fd.items with
              | none => rw [h1] at h; simp at h
              | some L₁ =>
                cases hr : collectB doc frags appliesB T n rest with
                | none => rw [h1, hr] at h; simp at h
                | some L' =>
                  rw [h1, hr] at h
                  simp only [Option.bind_some, Option.map_some, Option.some.injEq] at h
                  subst h
                  exact .spread ha hg hT (ih _ _ h1) (ih _ _ hr)
            · exact .otherSpread ha hg ‹_› (ih _ _ h)
        · exact .leftOutSpread ‹_› (ih _ _ h)

def collectManyB (T : String) (n : Nat) : List (List Selection) → Option (List Wanted)
  | [] => some []
  | s :: sets => (collectB doc frags appliesB T n s).bind
      (fun L₁ => (collectManyB T n sets).map (L₁ ++ ·))

theorem collectManyB_sound {T : String} {n : Nat} : ∀ {sets : List (List Selection)} {L : List Wanted},
    collectManyB doc frags appliesB T n sets = some L →
    CollectMany doc frags (fun d => appliesB d = true) T sets L
  | [], L, h => by
    simp only [collectManyB, Option.some.injEq] at h; subst h
    exact ⟨[], .nil, rfl⟩
  | s :: sets, L, h => by
    rw [collectManyB] at h
    cases h1 : collectB doc frags appliesB T n s with
    | none => rw [h1] at h; simp at h
    | some L₁ =>
      cases hr : collectManyB doc frags appliesB T n sets with
      | none => rw [h1, hr] at h; simp at h
      | some L' =>
        rw [h1, hr] at h
        simp only [Option.bind_some, Option.map_some, Option.some.injEq] at h
        subst h
        obtain ⟨Ls, h2, rfl⟩ := collectManyB_sound hr
        exact ⟨L₁ :: Ls, .cons (collectB_sound doc frags appliesB n s L₁ h1) h2, rfl⟩
end

def isNull : JVal → Bool
  | .null => true
  | _ => false

theorem isNull_iff {v : JVal} : isNull v = true ↔ v = .null := by cases v <;> simp [isNull]

def admitsB (base : JVal → Bool) : VarTy → JVal → Bool
  | .named _, v => isNull v || base v
  | .list t, v => match v with
    | .null => true
    | .arr vs => vs.all (admitsB base t)
    | _ => false
  | .nonNull t, v => !isNull v && admitsB base t v

theorem admitsB_sound {baseB : JVal → Bool} {base : JVal → Prop} (hb : ∀ y, baseB y = true → base y) :
    ∀ (t : VarTy) (v : JVal), admitsB baseB t v = true → Admits base t v
  | .named _, v, h => by
    rw [admitsB, Bool.or_eq_true, isNull_iff] at h
    exact h.imp id (hb v)
  | .list t, v, h => by
    cases v with
    | null => exact .inl rfl
    | arr vs =>
      simp only [admitsB, List.all_eq_true] at h
      exact .inr ⟨vs, rfl, fun x hx => admitsB_sound hb t x (h x hx)⟩
    | _ => simp [admitsB] at h
  | .nonNull t, v, h => by
    rw [admitsB, Bool.and_eq_true, Bool.not_eq_true'] at h
    refine ⟨?_, admitsB_sound hb t v h.2⟩
    rintro rfl
    simp [isNull] at h

/-- Leaf values; every string is a value of a custom scalar here. -/
def leafB (doc : JSchema) (kind n : String) (v : JVal) : Bool :=
  if kind = "ENUM" then
    match typeNamed doc n, v with
    | some j, .str s => decide (s ∈ j.enumValues.getD [])
    | _, _ => false
  else if n = "Int" ∨ n = "Float" then (match v with | .num _ => true | _ => false)
  else if n = "String" ∨ n = "ID" then (match v with | .str _ => true | _ => false)
  else if n = "Boolean" then (match v with | .bool _ => true | _ => false)
  else (match v with | .str _ => true | _ => false)

/-- Custom scalars whose values are the strings. -/
def stringScalars : String → JVal → Prop := fun _ v => ∃ s, v = .str s

theorem leafB_sound {doc : JSchema} {kind n : String} {v : JVal} (h : leafB doc kind n v = true) :
    LeafValue doc stringScalars kind n v := by
  unfold leafB at h
  unfold LeafValue
  split at h
  · rename_i hk
    rw [if_pos hk]
    cases hj : typeNamed doc n with
    | none => rw [hj] at h; simp at h
    | some j =>
      rw [hj] at h
      cases v with
      | str s =>
        simp only [decide_eq_true_eq] at h
        cases he : j.enumValues with
        | none => rw [he] at h; simp at h
        | some vs => rw [he] at h; exact ⟨j, vs, s, rfl, he, h, rfl⟩
      | _ => simp at h
  · rename_i hk
    rw [if_neg hk]
    split at h
    · rw [if_pos ‹_›]; cases v <;> simp at h; exact ⟨_, rfl⟩
    · rw [if_neg ‹_›]
      split at h
      · rw [if_pos ‹_›]; cases v <;> simp at h; exact ⟨_, rfl⟩
      · rw [if_neg ‹_›]
        split at h
        · rw [if_pos ‹_›]; cases v <;> simp at h; exact ⟨_, rfl⟩
        · rw [if_neg ‹_›]; cases v <;> simp at h; exact ⟨⟨_, rfl⟩, by simp⟩

section
variable (doc : JSchema) (frags : Frags) (appliesB : List Directive → Bool)

def isStr (T : String) : JVal → Bool
  | .str s => decide (s = T)
  | _ => false

def valueForB (R : String → List (List Selection) → JVal → Bool) (T : String) (r : Wanted)
    (rest : List Wanted) (x : JVal) : Bool :=
  if r.name = "__typename" then isStr T x
  else match fieldType doc T r.name with
    | none => false
    | some (kind, t) => admitsB (fun y =>
        if CompositeKind kind then
          (objectTypes doc (baseName t)).any (fun T' => R T' ((r :: rest).map Wanted.items) y)
        else leafB doc kind (baseName t) y) t x

/-- May a server answer this? -/
def answersB : Nat → String → List (List Selection) → JVal → Bool
  | 0, _, _, _ => false
  | n + 1, T, sets, .obj fs =>
    match collectManyB doc frags appliesB T (n + 1) sets with
    | none => false
    | some L =>
      decide (fs.map Prod.fst).Nodup &&
      (fs.map Prod.fst).all (fun k => decide (k ∈ L.map Wanted.key)) &&
      L.all (fun w => fs.any (fun p => decide (p.1 = w.key) &&
        match L.filter (fun w' => decide (w'.key = w.key)) with
        | [] => false
        | r :: rest => valueForB doc (answersB n) T r rest p.2))
  | _ + 1, _, _, _ => false

theorem answersB_sound : ∀ (m : Nat) (T : String) (sets : List (List Selection)) (v : JVal),
    answersB doc frags appliesB m T sets v = true →
    ∀ n, AnswersTo doc frags (fun d => appliesB d = true) stringScalars n T sets v := by
  intro m
  induction m with
  | zero => intro T sets v h; simp [answersB] at h
  | succ m ih =>
    intro T sets v h n
    cases v with
    | obj fs =>
      cases n with
      | zero => exact ⟨fs, rfl⟩
      | succ n =>
        rw [answersB] at h
        cases hL : collectManyB doc frags appliesB T (m + 1) sets with
        | none => rw [hL] at h; simp at h
        | some L =>
          rw [hL] at h
          simp only [Bool.and_eq_true, List.all_eq_true, List.any_eq_true, decide_eq_true_eq] at h
          obtain ⟨⟨h1, h2⟩, h3⟩ := h
          refine ⟨L, collectManyB_sound doc frags appliesB hL, fs, rfl, h1, ?_, ?_⟩
          · intro key
            constructor
            · exact h2 key
            · intro hk
              obtain ⟨w, hw, rfl⟩ := List.mem_map.1 hk
              obtain ⟨p, hp, e, _⟩ := h3 w hw
              exact List.mem_map.2 ⟨p, hp, e⟩
          · intro w hw
            obtain ⟨⟨k, x⟩, hp, e, hval⟩ := h3 w hw
            simp only at e hval
            subst e
            refine ⟨x, hp, ?_⟩
            cases hf : L.filter (fun w' => decide (w'.key = w.key)) with
            | nil => rw [hf] at hval; simp at hval
            | cons r rest =>
              rw [hf] at hval
              simp only at hval
              refine ⟨r, rest, hf, ?_⟩
              unfold valueForB at hval
              split at hval
              · rename_i hn
                refine .inl ⟨hn, ?_⟩
                cases x <;> simp [isStr] at hval
                rw [hval]
              · rename_i hn
                refine .inr ⟨hn, ?_⟩
                cases hft : fieldType doc T r.name with
                | none => rw [hft] at hval; simp at hval
                | some kt =>
                  obtain ⟨kind, t⟩ := kt
                  rw [hft] at hval
                  simp only at hval
                  refine ⟨kind, t, rfl, admitsB_sound ?_ t x hval⟩
                  intro y hy
                  split at hy
                  · rw [if_pos ‹_›]
                    rw [List.any_eq_true] at hy
                    obtain ⟨T', hT', hy⟩ := hy
                    exact ⟨T', hT', ih _ _ _ hy n⟩
                  · rw [if_neg ‹_›]
                    exact leafB_sound hy
    | _ => simp [answersB] at h
end

end Qlc
