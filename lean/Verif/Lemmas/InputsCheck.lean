import Verif.Lemmas.GrammarCheck
import Verif.Lemmas.GrammarInputs
/-
Checkers for concrete cases: input types of an introspection document.
-/
set_option autoImplicit false

namespace Qlc
open Spec

variable {cfg : TsConfig} {doc : JSchema}

theorem inputFields_mem {P : String} {f : JField} (h : f ∈ inputFields doc P) : P ∈ doc.types.map JType.name := by
  unfold inputFields at h
  cases hj : typeNamed doc P with
  | none => rw [hj] at h; simp at h
  | some j => exact typeNamed_mem hj

def validInputsB (doc : JSchema) : Bool :=
  (doc.types.map JType.name).all (fun P => (inputFields doc P).all (fun f =>
    match refType f.typeInformation with
    | some (k, t) => wellFormedB t && decide (k ∈ ["SCALAR", "ENUM", "INPUT_OBJECT"]) &&
        decide (kindNamed doc (baseName t) = some k) && decide (listDepth t ≤ 1)
    | none => false))

theorem validInputsB_sound (h : validInputsB doc = true) : ValidInputs doc ∧ OneListLevel doc := by
  have key : ∀ P, ∀ f ∈ inputFields doc P, ∃ k t, refType f.typeInformation = some (k, t) ∧ WellFormed t ∧
      k ∈ ["SCALAR", "ENUM", "INPUT_OBJECT"] ∧ kindNamed doc (baseName t) = some k ∧ listDepth t ≤ 1 := by
    intro P f hf
    unfold validInputsB at h
    rw [List.all_eq_true] at h
    have h1 := h P (inputFields_mem hf)
    rw [List.all_eq_true] at h1
    have h2 := h1 f hf
    split at h2
    · rename_i k t e
      simp only [Bool.and_eq_true, decide_eq_true_eq] at h2
      exact ⟨k, t, e, wellFormedB_sound t h2.1.1.1, h2.1.1.2, h2.1.2, h2.2⟩
    · simp at h2
  constructor
  · intro P f hf
    obtain ⟨k, t, h1, h2, h3, h4, _⟩ := key P f hf
    exact ⟨k, t, h1, h2, h3, h4⟩
  · intro P name k t e
    unfold inputFieldType at e
    cases hl : lastNamed JField.name name (inputFields doc P) with
    | none => rw [hl] at e; simp at e
    | some f =>
      rw [hl] at e
      obtain ⟨k', t', h1, _, _, _, h5⟩ := key P f (lastNamed_name hl).1
      rw [Option.bind_some, h1] at e
      injection e with e
      injection e with _ e
      subst e
      exact h5

def globalsWritableB (cfg : TsConfig) (doc : JSchema) : Bool :=
  (doc.types.map JType.name).all (fun n =>
    (if kindNamed doc n = some "ENUM" then
      decide (IsBinding n) && (enumValuesOf doc n).all (fun v => decide (IsIdent v.toList)) else true) &&
    (if kindNamed doc n = some "INPUT_OBJECT" then decide (IsBinding n) else true) &&
    (if kindNamed doc n = some "SCALAR" then decide (IsTypeRef (scalarSpelling cfg n)) else true) &&
    (inputFields doc n).all (fun f => decide (IsIdent f.name.toList) && docOkB f.description)) &&
  doc.types.all (fun j => if j.kind = "ENUM" then docOkB j.description else true)

theorem globalsWritableB_sound (h : globalsWritableB cfg doc = true) : GlobalsWritable cfg doc := by
  unfold globalsWritableB at h
  rw [Bool.and_eq_true, List.all_eq_true, List.all_eq_true] at h
  obtain ⟨h1, h2⟩ := h
  simp only [Bool.and_eq_true] at h1
  refine ⟨?_, ?_, ?_, ?_, ?_⟩
  · intro n hn
    have := (h1 n (kindNamed_mem hn)).1.1.1
    rw [if_pos hn, Bool.and_eq_true, decide_eq_true_eq, List.all_eq_true] at this
    exact ⟨this.1, fun v hv => by simpa using this.2 v hv⟩
  · intro n hn
    have := (h1 n (kindNamed_mem hn)).1.1.2
    rw [if_pos hn, decide_eq_true_eq] at this
    exact this
  · intro P f hf
    have := (h1 P (inputFields_mem hf)).2
    rw [List.all_eq_true] at this
    have := this f hf
    rw [Bool.and_eq_true, decide_eq_true_eq] at this
    exact ⟨this.1, docOkB_sound this.2⟩
  · intro n hn
    have := (h1 n (kindNamed_mem hn)).1.2
    rw [if_pos hn, decide_eq_true_eq] at this
    exact this
  · intro n j hj hk
    have := h2 j (lastNamed_name hj).1
    rw [if_pos hk] at this
    exact docOkB_sound this

def scalarsApartB (cfg : TsConfig) (doc : JSchema) : Bool :=
  (doc.types.map JType.name).all (fun n => if kindNamed doc n = some "SCALAR" then
    decide (kindNamed doc (scalarSpelling cfg n) ≠ some "ENUM") &&
    decide (kindNamed doc (scalarSpelling cfg n) ≠ some "INPUT_OBJECT") &&
    match cfg.bottomTypeConfig with
    | .realNameWithPrefix p => decide (kindNamed doc (p ++ n) ≠ some "ENUM") &&
        decide (kindNamed doc (p ++ n) ≠ some "INPUT_OBJECT")
    | _ => true
    else true)

theorem scalarsApartB_sound (h : scalarsApartB cfg doc = true) : ScalarsApart cfg doc := by
  unfold scalarsApartB at h
  rw [List.all_eq_true] at h
  intro n hn
  have := h n (kindNamed_mem hn)
  rw [if_pos hn, Bool.and_eq_true, Bool.and_eq_true, decide_eq_true_eq, decide_eq_true_eq] at this
  refine ⟨this.1.1, this.1.2, ?_⟩
  intro p hp
  have := this.2
  rw [hp] at this
  simp only [Bool.and_eq_true, decide_eq_true_eq] at this
  exact this

def validVarsB (doc : JSchema) (ds : List VarDef) : Bool :=
  ds.all (fun d => match kindNamed doc (baseName d.type) with
    | some k => decide (k ∈ ["SCALAR", "ENUM", "INPUT_OBJECT"]) &&
        decide (baseName d.type ∈ ["ID", "String", "Float", "Int", "Boolean"] → k = "SCALAR")
    | none => false)

theorem validVarsB_sound {ds : List VarDef} (h : validVarsB doc ds = true) : ValidVars doc ds := by
  unfold validVarsB at h
  rw [List.all_eq_true] at h
  intro d hd
  have := h d hd
  split at this
  · rename_i k e
    rw [Bool.and_eq_true, decide_eq_true_eq, decide_eq_true_eq] at this
    exact ⟨k, this.1, e, this.2⟩
  · simp at this

/-- A property given, of a type that passes, or left out if nullable. -/
def givenB (ok : String → JVal → Bool) (fs : List (String × JVal)) (name : String) (t : VarTy) : Bool :=
  fs.any (fun p => decide (p.1 = name) && admitsB (ok (baseName t)) t p.2) ||
    (isNullable t && decide (name ∉ fs.map Prod.fst))

theorem givenB_sound {okB : String → JVal → Bool} {ok : String → JVal → Prop} (ho : ∀ n v, okB n v = true → ok n v)
    {fs : List (String × JVal)} {name : String} {t : VarTy} (h : givenB okB fs name t = true) :
    (∃ x, (name, x) ∈ fs ∧ Admits (ok (baseName t)) t x) ∨ (isNullable t = true ∧ name ∉ fs.map Prod.fst) := by
  unfold givenB at h
  rw [Bool.or_eq_true, Bool.and_eq_true, List.any_eq_true, decide_eq_true_eq] at h
  rcases h with ⟨⟨a, x⟩, hp, hx⟩ | h
  · rw [Bool.and_eq_true, decide_eq_true_eq] at hx
    obtain ⟨rfl, hx⟩ := hx
    exact .inl ⟨x, hp, admitsB_sound (ho _) t x hx⟩
  · exact .inr h

/-- Does a server take this? -/
def inputB (doc : JSchema) : Nat → String → JVal → Bool
  | 0, _, _ => false
  | k + 1, n, v =>
    if kindNamed doc n = some "ENUM" then leafB doc "ENUM" n v
    else if kindNamed doc n = some "SCALAR" then leafB doc "SCALAR" n v
    else if kindNamed doc n = some "INPUT_OBJECT" then
      match v with
      | .obj fs => decide (fs.map Prod.fst).Nodup &&
          (fs.map Prod.fst).all (fun key => decide (key ∈ (inputFields doc n).map JField.name)) &&
          ((inputFields doc n).map JField.name).all (fun name =>
            match inputFieldType doc n name with
            | some (_, t) => givenB (inputB doc k) fs name t
            | none => false)
      | _ => false
    else false

theorem inputB_sound : ∀ (m k : Nat) (n : String) (v : JVal), inputB doc m n v = true →
    InputOf doc stringScalars k n v
  | 0, _, _, _, h => by simp [inputB] at h
  | m + 1, k, n, v, h => by
    have hleaf : LeafOf doc stringScalars n v → InputOf doc stringScalars k n v := by
      intro hl
      cases k with
      | zero => exact .inr hl
      | succ k => exact .inl hl
    unfold inputB at h
    split at h
    · exact hleaf ⟨"ENUM", by simp, ‹_›, leafB_sound h⟩
    split at h
    · exact hleaf ⟨"SCALAR", by simp, ‹_›, leafB_sound h⟩
    split at h
    · rename_i hk
      cases k with
      | zero => exact .inl hk
      | succ k =>
        refine .inr ⟨hk, ?_⟩
        split at h
        · rename_i fs
          rw [Bool.and_eq_true, Bool.and_eq_true, decide_eq_true_eq, List.all_eq_true, List.all_eq_true] at h
          obtain ⟨⟨h1, h2⟩, h3⟩ := h
          refine ⟨fs, rfl, h1, fun key hkey => by simpa using h2 key hkey, ?_⟩
          intro name hname
          have := h3 name hname
          split at this
          · rename_i kind t e
            exact ⟨kind, t, e, givenB_sound (fun n v h => inputB_sound m k n v h) this⟩
          · simp at this
        · simp at h
    · simp at h

def variablesB (doc : JSchema) (k : Nat) (ds : List VarDef) : JVal → Bool
  | .obj fs => decide (fs.map Prod.fst).Nodup &&
      (fs.map Prod.fst).all (fun key => decide (key ∈ ds.map VarDef.name)) &&
      ds.all (fun d => givenB (inputB doc k) fs d.name d.type)
  | _ => false

theorem variablesB_sound {k : Nat} {ds : List VarDef} {v : JVal} (h : variablesB doc k ds v = true) :
    VariablesOf doc stringScalars ds v := by
  cases v with
  | obj fs =>
    simp only [variablesB] at h
    rw [Bool.and_eq_true, Bool.and_eq_true, decide_eq_true_eq, List.all_eq_true, List.all_eq_true] at h
    obtain ⟨⟨h1, h2⟩, h3⟩ := h
    refine ⟨fs, rfl, h1, fun key hkey => by simpa using h2 key hkey, ?_⟩
    intro d hd
    exact givenB_sound (fun n v h j => inputB_sound k j n v h) (h3 d hd)
  | _ => simp [variablesB] at h

end Qlc
