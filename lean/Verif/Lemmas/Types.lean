import Verif.Spec.Types
import Verif.Model.Typescript
/-
Helper lemmas for C01, C02, C03, C59: lexing and parsing of printed types, semantics of modifiers.
-/
set_option autoImplicit false

namespace Qlc
open Spec

/-! ### Lexing -/

/-- `rest` does not continue an identifier. -/
def Stops (rest : List Char) : Prop := ∀ c, rest.head? = some c → isIdentChar c = false

/-- `s` lexes to `toks` in front of anything that does not continue an identifier. -/
def Lx (s : List Char) (toks : List Tok) : Prop :=
  ∀ rest, Stops rest → lex .start (s ++ rest) = (lex .start rest).map (toks ++ ·)

theorem lex_ident (cs : List Char) : ∀ acc rest, (∀ c ∈ cs, isIdentChar c = true) → Stops rest →
    lex (.ident acc) (cs ++ rest) = (lex .start rest).map ([.ident (acc ++ cs)] ++ ·) := by
  induction cs with
  | nil =>
    intro acc rest _ hs
    cases rest with
    | nil => simp [lex]
    | cons c cs =>
      have := hs c rfl
      simp only [List.nil_append, lex, this, List.append_nil]
      cases h : lexChar c with
      | none => simp
      | some p => obtain ⟨ts, st⟩ := p; simp [Option.map_map, Function.comp_def]
  | cons c cs ih =>
    intro acc rest h hs
    have hc : isIdentChar c = true := h c (by simp)
    simp only [List.cons_append, lex, hc, if_true]
    rw [ih _ _ (fun d hd => h d (by simp [hd])) hs]
    simp

theorem Lx.ident {cs : List Char} (hne : cs ≠ []) (h : ∀ c ∈ cs, isIdentChar c = true) :
    Lx cs [.ident cs] := by
  intro rest hs
  cases cs with
  | nil => exact absurd rfl hne
  | cons c cs =>
    have hc : isIdentChar c = true := h c (by simp)
    have : lexChar c = some ([], .ident [c]) := by simp [lexChar, hc]
    simp only [List.cons_append, lex, this]
    rw [lex_ident cs [c] rest (fun d hd => h d (by simp [hd])) hs]
    simp [Option.map_map, Function.comp_def]

theorem Stops.cons {c : Char} {cs : List Char} (h : isIdentChar c = false) : Stops (c :: cs) := by
  intro d hd; simp at hd; rw [← hd]; exact h

theorem Lx.append {a b : List Char} {ta tb : List Tok} (ha : Lx a ta) (hb : Lx b tb)
    (hs : ∀ rest, Stops rest → Stops (b ++ rest)) : Lx (a ++ b) (ta ++ tb) := by
  intro rest hr
  rw [List.append_assoc, ha _ (hs rest hr), hb rest hr]
  simp [Option.map_map, Function.comp_def]

theorem lexStart_ne {c : Char} {ts : List Tok} {st : LexSt} (h : lexChar c = some (ts, st))
    (cs : List Char) : lex .start (c :: cs) = (lex st cs).map (ts ++ ·) := by
  simp [lex, h]

theorem Lx.paren {s : List Char} {t : List Tok} (h : Lx s t) :
    Lx ('(' :: (s ++ [')'])) (.lpar :: (t ++ [.rpar])) := by
  intro rest hr
  have h1 : lexChar '(' = some ([.lpar], .start) := by decide
  have h2 : lexChar ')' = some ([.rpar], .start) := by decide
  have e : s ++ [')'] ++ rest = s ++ (')' :: rest) := by simp
  rw [List.cons_append, lexStart_ne h1, e, h _ (Stops.cons (by decide)), lexStart_ne h2]
  simp [Option.map_map, Function.comp_def]

theorem Lx.brackets {s : List Char} {t : List Tok} (h : Lx s t) :
    Lx (s ++ ['[', ']']) (t ++ [.brackets]) := by
  intro rest hr
  have h1 : lexChar '[' = some ([], .bracket) := by decide
  have e : s ++ ['[', ']'] ++ rest = s ++ ('[' :: ']' :: rest) := by simp
  rw [e, h _ (Stops.cons (by decide)), lexStart_ne h1]
  simp [lex, Option.map_map, Function.comp_def]

theorem Lx.orNull {s : List Char} {t : List Tok} (h : Lx s t) :
    Lx (s ++ " | null".toList) (t ++ [.bar, .ident "null".toList]) := by
  intro rest hr
  have h1 : lexChar ' ' = some ([], .start) := by decide
  have h2 : lexChar '|' = some ([.bar], .start) := by decide
  have e : " | null".toList = ' ' :: '|' :: ' ' :: "null".toList := by decide
  have h3 : Lx "null".toList [.ident "null".toList] := Lx.ident (by decide) (by decide)
  rw [e, List.append_assoc, List.cons_append, List.cons_append, List.cons_append,
    h _ (Stops.cons (by decide)), lexStart_ne h1, lexStart_ne h2, lexStart_ne h1, h3 rest hr]
  simp [Option.map_map, Function.comp_def]

theorem lex_of_Lx {s : List Char} {t : List Tok} (h : Lx s t) : lex .start s = some t := by
  have := h [] (by intro c hc; simp at hc)
  simpa [lex] using this

/-! ### Parsing -/

/-- The tokens are one operand. -/
def Prim (toks : List Tok) (t : TsTy) : Prop :=
  ∀ acc st, parseToks (⟨acc, none⟩ :: st) toks = some (⟨acc, some t⟩ :: st)

/-- The tokens are a whole type. -/
def Full (toks : List Tok) (t : TsTy) : Prop :=
  ∀ st, ∃ a c, parseToks (⟨none, none⟩ :: st) toks = some (⟨a, some c⟩ :: st) ∧ joinUnion a c = t

theorem parseToks_append (a b : List Tok) : ∀ st,
    parseToks st (a ++ b) = (parseToks st a).bind (fun st' => parseToks st' b) := by
  induction a with
  | nil => intro st; simp [parseToks]
  | cons t ts ih =>
    intro st
    simp only [List.cons_append, parseToks]
    cases parseTok st t with
    | none => simp
    | some st' => simp [ih]

theorem Prim.full {toks : List Tok} {t : TsTy} (h : Prim toks t) : Full toks t := by
  intro st; exact ⟨none, t, h none st, rfl⟩

theorem Full.paren {toks : List Tok} {t : TsTy} (h : Full toks t) :
    Prim (.lpar :: (toks ++ [.rpar])) t := by
  intro acc st
  obtain ⟨a, c, h1, h2⟩ := h (⟨acc, none⟩ :: st)
  simp [parseToks, parseTok, parseToks_append, h1, h2]

theorem Prim.brackets {toks : List Tok} {t : TsTy} (h : Prim toks t) :
    Prim (toks ++ [.brackets]) (.arr t) := by
  intro acc st
  simp [parseToks, parseTok, parseToks_append, h acc st]

theorem Prim.orNull {toks : List Tok} {t : TsTy} (h : Prim toks t) :
    Full (toks ++ [.bar, .ident "null".toList]) (.union t .null) := by
  intro st
  refine ⟨some t, .null, ?_, rfl⟩
  simp [parseToks, parseTok, parseToks_append, h none st, joinUnion]

theorem Prim.ident {s : String} (h : s ≠ "null") : Prim [.ident s.toList] (.ref s) := by
  intro acc st
  have : s.toList ≠ "null".toList := by
    intro e; exact h (String.toList_inj.mp e)
  simp only [parseToks, parseTok, this, if_false]
  simp

theorem parseTs_of {s : String} {toks : List Tok} {t : TsTy} (h1 : Lx s.toList toks)
    (h2 : Full toks t) : parseTs s = some t := by
  obtain ⟨a, c, h3, h4⟩ := h2 []
  simp [parseTs, lex_of_Lx h1, h3, h4]

/-! ### Printed modifiers -/

/-- A text that is one operand. -/
def TextPrim (s : String) (t : TsTy) : Prop := ∃ toks, Lx s.toList toks ∧ Prim toks t
/-- A text that is a whole type. -/
def TextFull (s : String) (t : TsTy) : Prop := ∃ toks, Lx s.toList toks ∧ Full toks t

theorem TextPrim.full {s : String} {t : TsTy} : TextPrim s t → TextFull s t
  | ⟨k, h1, h2⟩ => ⟨k, h1, h2.full⟩

theorem TextPrim.ident {s : String} (h : IsTypeName s) : TextPrim s (.ref s) :=
  ⟨_, Lx.ident h.1 h.2.1, Prim.ident h.2.2⟩

theorem TextFull.paren {s : String} {t : TsTy} : TextFull s t → TextPrim ("(" ++ s ++ ")") t
  | ⟨k, h1, h2⟩ => ⟨_, by simpa using h1.paren, h2.paren⟩

theorem TextPrim.brackets {s : String} {t : TsTy} :
    TextPrim s t → TextPrim (s ++ "[]") (.arr t)
  | ⟨k, h1, h2⟩ => ⟨_, by simpa using h1.brackets, h2.brackets⟩

theorem TextPrim.orNull {s : String} {t : TsTy} :
    TextPrim s t → TextFull (s ++ " | null") (.union t .null)
  | ⟨k, h1, h2⟩ => ⟨_, by simpa using h1.orNull, h2.orNull⟩

theorem TextFull.parse {s : String} {t : TsTy} : TextFull s t → parseTs s = some t
  | ⟨_, h1, h2⟩ => parseTs_of h1 h2

theorem singleProp_full (m : Mod) {s : String} {t : TsTy} (h : TextPrim s t) :
    TextFull (singlePropTypeDef m s) (wrapMod m t) := by
  cases m with
  | none => exact h.full
  | nullable => exact h.orNull
  | list => exact h.brackets.full
  | nullableList =>
    have := h.brackets.orNull
    simpa [singlePropTypeDef, wrapMod, String.append_assoc] using this
  | listOfNullable =>
    have := (h.orNull.paren).brackets.full
    simpa [singlePropTypeDef, wrapMod, String.append_assoc] using this
  | nullableListOfNullable =>
    have := (h.orNull.paren).brackets.orNull
    simpa [singlePropTypeDef, wrapMod, String.append_assoc] using this

theorem propTypeDef_full (rest : List Mod) (last : Mod) {s : String} {t : TsTy}
    (h : TextPrim s t) : TextFull (propTypeDef rest last s) (wrapMods (last :: rest) t) := by
  unfold propTypeDef wrapMods
  have h0 := singleProp_full last h
  generalize singlePropTypeDef last s = s0 at h0 ⊢
  generalize wrapMod last t = t0 at h0 ⊢
  induction rest generalizing s0 t0 with
  | nil => simpa [wrapMods] using h0
  | cons m ms ih =>
    simp only [List.foldl_cons, wrapMods]
    exact ih _ _ (singleProp_full m h0.paren)

/-! ### Semantics of modifier sequences -/

/-- Non-null values of a GraphQL type. -/
def Core (base : JVal → Prop) : VarTy → JVal → Prop
  | .named _, v => base v
  | .list t, v => ∃ vs, v = .arr vs ∧ ∀ x ∈ vs, Admits base t x
  | .nonNull t, v => Core base t v

theorem admits_iff_core {base : JVal → Prop} (hb : ¬ base .null) (t : VarTy) (v : JVal) :
    (v ≠ .null ∧ Admits base t v) ↔ Core base t v := by
  induction t generalizing v with
  | named n =>
    simp only [Admits, Core]
    constructor
    · rintro ⟨h, h' | h'⟩
      · exact absurd h' h
      · exact h'
    · intro h; exact ⟨fun e => hb (e ▸ h), Or.inr h⟩
  | list t ih =>
    simp only [Admits, Core]
    constructor
    · rintro ⟨h, h' | h'⟩
      · exact absurd h' h
      · exact h'
    · rintro ⟨vs, rfl, h⟩; exact ⟨by simp, Or.inr ⟨vs, rfl, h⟩⟩
  | nonNull t ih =>
    simp only [Admits, Core]
    rw [← ih]
    constructor
    · rintro ⟨h, _, h'⟩; exact ⟨h, h'⟩
    · rintro ⟨h, h'⟩; exact ⟨h, h, h'⟩

/-- Meaning of a modifier on value sets. -/
def modSem (m : Mod) (P : JVal → Prop) : JVal → Prop := fun v =>
  match m with
  | .none => P v
  | .nullable => P v ∨ v = .null
  | .list => ∃ vs, v = .arr vs ∧ ∀ x ∈ vs, P x
  | .nullableList => (∃ vs, v = .arr vs ∧ ∀ x ∈ vs, P x) ∨ v = .null
  | .listOfNullable => ∃ vs, v = .arr vs ∧ ∀ x ∈ vs, (P x ∨ x = .null)
  | .nullableListOfNullable => (∃ vs, v = .arr vs ∧ ∀ x ∈ vs, (P x ∨ x = .null)) ∨ v = .null

theorem tsAdmits_wrapMod (env : String → JVal → Prop) (m : Mod) (t : TsTy) (v : JVal) :
    TsAdmits env (wrapMod m t) v ↔ modSem m (TsAdmits env t) v := by
  cases m <;> simp [wrapMod, modSem, TsAdmits]

/-- Meaning of a modifier sequence, innermost first. -/
def modsSem : List Mod → (JVal → Prop) → JVal → Prop
  | [], P => P
  | m :: ms, P => modsSem ms (modSem m P)

theorem modSem_congr {m : Mod} {P Q : JVal → Prop} (h : ∀ v, P v ↔ Q v) (v : JVal) :
    modSem m P v ↔ modSem m Q v := by
  have : P = Q := funext (fun v => propext (h v))
  rw [this]

theorem tsAdmits_wrapMods (env : String → JVal → Prop) (ms : List Mod) (t : TsTy) (v : JVal) :
    TsAdmits env (wrapMods ms t) v ↔ modsSem ms (TsAdmits env t) v := by
  induction ms generalizing t with
  | nil => exact Iff.rfl
  | cons m ms ih =>
    simp only [wrapMods, modsSem]
    rw [ih]
    have : TsAdmits env (wrapMod m t) = modSem m (TsAdmits env t) :=
      funext (fun v => propext (tsAdmits_wrapMod env m t v))
    rw [this]

theorem modsSem_append (a b : List Mod) (P : JVal → Prop) :
    modsSem (a ++ b) P = modsSem b (modsSem a P) := by
  induction a generalizing P with
  | nil => rfl
  | cons m ms ih => simp [modsSem, ih]

/-- `n` singleton arrays around a value. -/
def nest : Nat → JVal → JVal
  | 0, v => v
  | n + 1, v => .arr [nest n v]

/-- List levels of a modifier. -/
def modDepth : Mod → Nat
  | .none | .nullable => 0
  | _ => 1

/-- List levels of a modifier sequence. -/
def modsDepth (ms : List Mod) : Nat := (ms.map modDepth).sum

theorem nest_ne_null {x : JVal} (hx : x.Plain) (n : Nat) : nest n x ≠ .null := by
  cases n with
  | zero => intro h; simp [nest] at h; rw [h] at hx; exact hx
  | succ n => simp [nest]

theorem modsSem_nest {x : JVal} (hx : x.Plain) (ms : List Mod) (P : JVal → Prop)
    (k : Nat) (hP : ∀ n, P (nest n x) ↔ n = k) (n : Nat) :
    modsSem ms P (nest n x) ↔ n = k + modsDepth ms := by
  induction ms generalizing P k n with
  | nil => simpa [modsSem, modsDepth] using hP n
  | cons m ms ih =>
    simp only [modsSem]
    rw [ih (modSem m P) (k + modDepth m) ?_ n]
    · simp [modsDepth]; omega
    · intro n
      have h0 := nest_ne_null hx n
      have h00 := hP n
      cases m with
      | none => simpa [modSem, modDepth] using hP n
      | nullable => simp [modSem, modDepth, h0, hP n]
      | list | nullableList | listOfNullable | nullableListOfNullable =>
        cases n with
        | zero =>
          have : ∀ vs, x ≠ .arr vs := by
            intro vs h; rw [h] at hx; exact hx
          simp [nest] at h0
          simp [modSem, modDepth, nest, this, h0]
        | succ n =>
          have h1 := nest_ne_null hx n
          simp [modSem, modDepth, nest, hP n, h1]

theorem admits_nest {base : JVal → Prop} {x : JVal} (hx : base x) (hp : x.Plain) (t : VarTy) :
    Admits base t (nest (listDepth t) x) := by
  induction t with
  | named n => right; exact hx
  | list t ih => right; exact ⟨[nest (listDepth t) x], rfl, by simpa using ih⟩
  | nonNull t ih => exact ⟨nest_ne_null hp _, ih⟩

/-- The values of the whole type when the hole holds the values `S`. -/
def outer (c : Mod) (S : JVal → Prop) : JVal → Prop := fun v =>
  match c with
  | .none | .nullable => S v
  | .list | .listOfNullable => ∃ vs, v = .arr vs ∧ ∀ x ∈ vs, S x
  | .nullableList | .nullableListOfNullable => (∃ vs, v = .arr vs ∧ ∀ x ∈ vs, S x) ∨ v = .null

/-- Does the hole of this modifier admit `null`? -/
def holeNullable : Mod → Bool
  | .nullable | .listOfNullable | .nullableListOfNullable => true
  | _ => false

/-- What the remaining type contributes to the hole. -/
def holeSem (base : JVal → Prop) (c : Mod) (t : VarTy) : JVal → Prop :=
  if holeNullable c then Admits base t else Core base t

/-- Some list level will be dropped when the builder goes on with `t`. -/
def badFrom (c : Mod) : VarTy → Bool
  | .named _ => false
  | .nonNull t => badFrom (ModBuilder.actualize ⟨c, []⟩).concrete t
  | .list t => decide (c = .nullableList) || badFrom (ModBuilder.listize ⟨c, []⟩).concrete t

theorem actualize_concrete (c : Mod) (h : List Mod) :
    (ModBuilder.actualize ⟨c, h⟩).concrete = (ModBuilder.actualize ⟨c, []⟩).concrete := by
  cases c <;> rfl

theorem listize_concrete (c : Mod) (h : List Mod) :
    (ModBuilder.listize ⟨c, h⟩).concrete = (ModBuilder.listize ⟨c, []⟩).concrete := by
  cases c <;> rfl

/-- Well-formedness in a hole: no `!` right after a `!`. -/
def WfFrom (c : Mod) (t : VarTy) : Prop :=
  WellFormed t ∧ (holeNullable c = false → isNullable t = true)

/-- The final modifiers the builder produces, innermost first. -/
def builderMods : ModBuilder → VarTy → List Mod
  | b, .named _ => b.concrete :: b.higher.reverse
  | b, .nonNull t => builderMods b.actualize t
  | b, .list t => builderMods b.listize t

theorem ofJsonAux_describes {kind : String} {j : JFieldType} {t : VarTy} (h : Describes kind j t)
    (hk1 : kind ≠ "NON_NULL") (hk2 : kind ≠ "LIST") (b : ModBuilder) :
    FieldType.ofJsonAux b j = (fieldTypeDefOfKind kind (baseName t)).map (fun d =>
      match builderMods b t with
      | [] => ⟨baseName t, .none, d, []⟩
      | last :: rest => ⟨baseName t, last, d, rest⟩) := by
  induction h generalizing b with
  | named n ot =>
    unfold FieldType.ofJsonAux
    simp only [hk1, hk2, if_false, builderMods, baseName]
    cases fieldTypeDefOfKind kind n <;> rfl
  | list nm j t _ ih =>
    unfold FieldType.ofJsonAux
    simp only [builderMods, baseName]
    simp [ih]
  | nonNull nm j t _ ih =>
    unfold FieldType.ofJsonAux
    simp only [builderMods, baseName]
    simp [ih]

theorem builderMods_ne_nil (b : ModBuilder) (t : VarTy) : builderMods b t ≠ [] := by
  induction t generalizing b with
  | named n => simp [builderMods]
  | list t ih => exact ih _
  | nonNull t ih => exact ih _

theorem arr_core {base : JVal → Prop} {t : VarTy} {v : JVal} :
    Core base (.list t) v ↔ ∃ vs, v = .arr vs ∧ ∀ x ∈ vs, Admits base t x := Iff.rfl

theorem listize_sem (base : JVal → Prop) (c : Mod) (t : VarTy)
    (hc : c ≠ .nullableList) (h : List Mod) :
    ∃ pre, (ModBuilder.listize ⟨c, h⟩).higher = h ++ pre ∧
      modsSem pre.reverse (outer (ModBuilder.listize ⟨c, h⟩).concrete (Admits base t)) =
        outer c (holeSem base c (.list t)) := by
  cases c with
  | none =>
    exact ⟨[], by simp [ModBuilder.listize], by
      funext v; simp [ModBuilder.listize, modsSem, outer, holeSem, holeNullable, Core]⟩
  | nullable =>
    exact ⟨[], by simp [ModBuilder.listize], by
      funext v; simp [ModBuilder.listize, modsSem, outer, holeSem, holeNullable, Admits, or_comm]⟩
  | list =>
    exact ⟨[.list], by simp [ModBuilder.listize], by
      funext v; simp [ModBuilder.listize, modsSem, modSem, outer, holeSem, holeNullable, Core]⟩
  | nullableList => exact absurd rfl hc
  | listOfNullable =>
    refine ⟨[.listOfNullable], by simp [ModBuilder.listize], ?_⟩
    funext v
    simp only [ModBuilder.listize, modsSem, modSem, outer, holeSem, holeNullable, Admits,
      List.reverse_cons, List.reverse_nil, List.nil_append]
    congr; funext vs; congr; apply propext
    constructor
    · intro h x hx
      rcases h x hx with (h | h) | h
      · exact Or.inr h
      · exact Or.inl h
      · exact Or.inl h
    · intro h x hx
      rcases h x hx with h | h
      · exact Or.inr h
      · exact Or.inl (Or.inl h)
  | nullableListOfNullable =>
    refine ⟨[.nullableListOfNullable], by simp [ModBuilder.listize], ?_⟩
    funext v
    simp only [ModBuilder.listize, modsSem, modSem, outer, holeSem, holeNullable, Admits,
      List.reverse_cons, List.reverse_nil, List.nil_append]
    congr; funext vs; congr; apply propext
    constructor
    · intro h x hx
      rcases h x hx with (h | h) | h
      · exact Or.inr h
      · exact Or.inl h
      · exact Or.inl h
    · intro h x hx
      rcases h x hx with h | h
      · exact Or.inr h
      · exact Or.inl (Or.inl h)

theorem builder_sound {base : JVal → Prop} (hb : ¬ base .null) (t : VarTy) :
    ∀ (c : Mod) (h : List Mod), WfFrom c t → badFrom c t = false →
      modsSem (builderMods ⟨c, h⟩ t) base = modsSem h.reverse (outer c (holeSem base c t)) := by
  induction t with
  | named n =>
    intro c h _ _
    simp only [builderMods, modsSem]
    congr 1
    funext v
    cases c <;> simp [modSem, outer, holeSem, holeNullable, Admits, Core, or_comm]
  | nonNull t ih =>
    intro c h hw hbad
    have hn : holeNullable c = true := by
      cases hc : holeNullable c with
      | true => rfl
      | false => have := hw.2 hc; simp [isNullable] at this
    simp only [badFrom] at hbad
    have hcore : Admits base (.nonNull t) = Core base t := by
      funext v; exact propext (admits_iff_core hb t v)
    have hwt : WellFormed t ∧ isNullable t = true := by
      have := hw.1
      cases t with
      | named n => exact ⟨trivial, rfl⟩
      | list t => exact ⟨this, rfl⟩
      | nonNull t => exact absurd this (by simp [WellFormed])
    cases c with
    | none => simp [holeNullable] at hn
    | list => simp [holeNullable] at hn
    | nullableList => simp [holeNullable] at hn
    | nullable =>
      simp only [builderMods, ModBuilder.actualize]
      rw [ih .none h ⟨hwt.1, fun _ => hwt.2⟩ (by simpa [ModBuilder.actualize] using hbad)]
      congr 1; funext v; simp [outer, holeSem, holeNullable, hcore]
    | listOfNullable =>
      simp only [builderMods, ModBuilder.actualize]
      rw [ih .list h ⟨hwt.1, fun _ => hwt.2⟩ (by simpa [ModBuilder.actualize] using hbad)]
      congr 1; funext v; simp [outer, holeSem, holeNullable, hcore]
    | nullableListOfNullable =>
      simp only [builderMods, ModBuilder.actualize]
      rw [ih .nullableList h ⟨hwt.1, fun _ => hwt.2⟩ (by simpa [ModBuilder.actualize] using hbad)]
      congr 1; funext v; simp [outer, holeSem, holeNullable, hcore]
  | list t ih =>
    intro c h hw hbad
    simp only [badFrom, Bool.or_eq_false_iff, decide_eq_false_iff_not] at hbad
    obtain ⟨pre, hp1, hp2⟩ := listize_sem base c t hbad.1 h
    have hhn : holeNullable (ModBuilder.listize ⟨c, h⟩).concrete = true := by
      cases c <;> simp [ModBuilder.listize, holeNullable]
    have e : ModBuilder.listize ⟨c, h⟩ = ⟨(ModBuilder.listize ⟨c, h⟩).concrete, h ++ pre⟩ := by
      rw [← hp1]
    simp only [builderMods]
    rw [e, ih _ _ ⟨by simpa [WellFormed] using hw.1, by simp [hhn]⟩
      (by rw [listize_concrete]; exact hbad.2)]
    rw [List.reverse_append, modsSem_append, ← hp2]
    simp [holeSem, hhn]

theorem modsDepth_append (a b : List Mod) : modsDepth (a ++ b) = modsDepth a + modsDepth b := by
  simp [modsDepth]

theorem modsDepth_reverse (a : List Mod) : modsDepth a.reverse = modsDepth a := by
  simp [modsDepth]

theorem builder_depth_le (t : VarTy) : ∀ (c : Mod) (h : List Mod),
    modsDepth (builderMods ⟨c, h⟩ t) ≤ modsDepth h + modDepth c + listDepth t ∧
    (badFrom c t = true →
      modsDepth (builderMods ⟨c, h⟩ t) < modsDepth h + modDepth c + listDepth t) := by
  induction t with
  | named n =>
    intro c h
    simp [builderMods, modsDepth, badFrom, listDepth]; omega
  | nonNull t ih =>
    intro c h
    simp only [builderMods, badFrom, listDepth]
    cases c with
    | nullable => simpa [ModBuilder.actualize, modDepth] using ih .none h
    | listOfNullable => simpa [ModBuilder.actualize, modDepth] using ih .list h
    | nullableListOfNullable => simpa [ModBuilder.actualize, modDepth] using ih .nullableList h
    | none =>
      have := ih .nullable (h ++ [.none])
      simpa [ModBuilder.actualize, modDepth, modsDepth] using this
    | list =>
      have := ih .nullable (h ++ [.list])
      simpa [ModBuilder.actualize, modDepth, modsDepth] using this
    | nullableList =>
      have := ih .nullable (h ++ [.nullableList])
      simpa [ModBuilder.actualize, modDepth, modsDepth] using this
  | list t ih =>
    intro c h
    simp only [builderMods, badFrom, listDepth]
    cases c with
    | none =>
      have := ih .listOfNullable h
      simp [ModBuilder.listize, modDepth] at this ⊢
      exact ⟨by omega, fun hb => by have := this.2 hb; omega⟩
    | nullable =>
      have := ih .nullableListOfNullable h
      simp [ModBuilder.listize, modDepth] at this ⊢
      exact ⟨by omega, fun hb => by have := this.2 hb; omega⟩
    | list =>
      have := ih .listOfNullable (h ++ [.list])
      simp [ModBuilder.listize, modDepth, modsDepth] at this ⊢
      exact ⟨by omega, fun hb => by have := this.2 hb; omega⟩
    | listOfNullable =>
      have := ih .nullableListOfNullable (h ++ [.listOfNullable])
      simp [ModBuilder.listize, modDepth, modsDepth] at this ⊢
      exact ⟨by omega, fun hb => by have := this.2 hb; omega⟩
    | nullableListOfNullable =>
      have := ih .nullableListOfNullable (h ++ [.nullableListOfNullable])
      simp [ModBuilder.listize, modDepth, modsDepth] at this ⊢
      exact ⟨by omega, fun hb => by have := this.2 hb; omega⟩
    | nullableList =>
      have := ih .nullable (h ++ [.nullableList])
      simp [ModBuilder.listize, modDepth, modsDepth] at this ⊢
      omega

/-- Is the state one in which the enclosing position is a nullable list's non-null element? -/
theorem badFrom_iff (t : VarTy) : WellFormed t →
    (badFrom .nullable t = hasNonNullListInNullableList false t) ∧
    (badFrom .listOfNullable t = hasNonNullListInNullableList false t) ∧
    (badFrom .nullableListOfNullable t =
      (isNonNullList t ||
        hasNonNullListInNullableList false t)) ∧
    (isNullable t = true → badFrom .none t = hasNonNullListInNullableList true t ∧
      badFrom .list t = hasNonNullListInNullableList true t ∧
      badFrom .nullableList t = (isList t ||
        hasNonNullListInNullableList true t)) := by
  induction t with
  | named n => intro _; simp [badFrom, hasNonNullListInNullableList, isNonNullList, isList]
  | nonNull t ih =>
    intro hw
    have hwt : WellFormed t ∧ isNullable t = true := by
      cases t with
      | named n => exact ⟨trivial, rfl⟩
      | list t => exact ⟨hw, rfl⟩
      | nonNull t => exact absurd hw (by simp [WellFormed])
    obtain ⟨h1, h2, h3, h4⟩ := ih hwt.1
    obtain ⟨h5, h6, h7⟩ := h4 hwt.2
    refine ⟨?_, ?_, ?_, by simp [isNullable]⟩
    · simp [badFrom, hasNonNullListInNullableList, ModBuilder.actualize, h5]
    · simp [badFrom, hasNonNullListInNullableList, ModBuilder.actualize, h6]
    · simp only [badFrom, hasNonNullListInNullableList, ModBuilder.actualize, h7, isNonNullList]
  | list t ih =>
    intro hw
    obtain ⟨h1, h2, h3, h4⟩ := ih hw
    refine ⟨?_, ?_, ?_, ?_⟩
    · simp [badFrom, hasNonNullListInNullableList, ModBuilder.listize, h3]
    · simp [badFrom, hasNonNullListInNullableList, ModBuilder.listize, h3]
    · simp [badFrom, hasNonNullListInNullableList, ModBuilder.listize, h3, isNonNullList]
    · intro _
      simp [badFrom, hasNonNullListInNullableList, ModBuilder.listize, h1, h2, isList]

end Qlc
