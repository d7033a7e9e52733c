import Verif.Lemmas.RespCheck
import Verif.Lemmas.GrammarDoc
/-
Checkers for concrete cases: names and descriptions that can be written in TypeScript.
-/
set_option autoImplicit false

namespace Qlc
open Spec

def docOkB : Option String → Bool
  | none => true
  | some d => (splitNl d.toList).all (fun l => !(remove2 '/' '*' l).contains '*')

theorem docOkB_sound {o : Option String} (h : docOkB o = true) : DocOk o := by
  rintro d rfl line hl
  have := (List.all_eq_true.1 h) line hl
  rintro ⟨pre, k, post, e⟩
  rw [e] at this
  simp at this

def writableB (cfg : TsConfig) (doc : JSchema) : Bool :=
  objectTypesB (fun T => decide (IsGqlName T)) doc &&
  (doc.types.map JType.name).all (fun n =>
    (if kindNamed doc n = some "ENUM" then decide (IsBinding n) else true) &&
    (if kindNamed doc n = some "SCALAR" then
      match cfg.bottomTypeConfig with
      | .defaultBottomType => true
      | .realName => decide (IsTypeRef n)
      | .realNameWithPrefix p => decide (IsTypeRef (p ++ n))
    else true)) &&
  doc.types.all (fun j => (j.fields.getD []).all (fun f => docOkB f.description)) &&
  decide (StrOk cfg.typedGraphqlDocumentnodeModuleName.toList) &&
  decide (StrOk cfg.globalTypesModuleName.toList)

theorem writableB_sound {cfg : TsConfig} {doc : JSchema} (h : writableB cfg doc = true) : Writable cfg doc := by
  unfold writableB at h
  simp only [Bool.and_eq_true, decide_eq_true_eq] at h
  obtain ⟨⟨⟨⟨h1, h2⟩, h3⟩, h4⟩, h5⟩ := h
  rw [List.all_eq_true] at h2 h3
  refine ⟨?_, ?_, ?_, ?_, h4, h5⟩
  · intro P T hT
    simpa using objectTypesB_sound h1 P T hT
  · intro n hn
    have := h2 n (kindNamed_mem hn)
    rw [Bool.and_eq_true, if_pos hn] at this
    simpa using this.1
  · intro n hn
    have := h2 n (kindNamed_mem hn)
    rw [Bool.and_eq_true, if_pos hn] at this
    have := this.2
    cases hb : cfg.bottomTypeConfig with
    | defaultBottomType => trivial
    | realName => rw [hb] at this; simpa using this
    | realNameWithPrefix p => rw [hb] at this; simpa using this
  · intro P f hf
    unfold declaredFields at hf
    cases hj : typeNamed doc P with
    | none => rw [hj] at hf; simp at hf
    | some j =>
      rw [hj] at hf
      simp only at hf
      split at hf
      · exact docOkB_sound (List.all_eq_true.1 (h3 j (lastNamed_name hj).1) f hf)
      · simp at hf

def varsWritableB (vs : List Variable) : Bool :=
  vs.all (fun v => decide (IsGqlName v.propName) && match v.type with
    | .custom n => decide (IsBinding n)
    | _ => true)

theorem varsWritableB_sound {schema : Schema} {vs : List Variable} (h : varsWritableB vs = true) :
    VarsWritable schema vs := by
  intro v hv
  have := (List.all_eq_true.1 h) v hv
  rw [Bool.and_eq_true, decide_eq_true_eq] at this
  refine ⟨this.1, ?_⟩
  intro n hn _
  have := this.2
  rw [hn] at this
  simpa using this

end Qlc
