import Verif.Props.Schema
import Verif.Props.Docs
/-
Property C73: descriptions of the schema in the generated comments.
-/
set_option autoImplicit false

namespace Qlc
open Spec

theorem splitNl_joinLines : ∀ (ls : List (List Char)), (∀ l ∈ ls, '\n' ∉ l) → ls ≠ [] →
    splitNl (joinLines ls) = ls
  | [], _, h => absurd rfl h
  | [l], h, _ => by
    have e : joinLines [l] = l := by simp [joinLines, List.intercalate]
    rw [e, splitNl_none (h l (by simp))]
  | l :: m :: ls, h, _ => by
    have e : joinLines (l :: m :: ls) = l ++ '\n' :: joinLines (m :: ls) := by
      simp [joinLines, List.intercalate]
    rw [e, splitNl_nl (h l (by simp)), splitNl_joinLines (m :: ls) (fun x hx => h x (by simp [hx])) (by simp)]

theorem isLines_no_nl {cs : List Char} {ls : List (List Char)} (h : IsLines cs ls) :
    ∀ l ∈ ls, '\n' ∉ l := by
  induction h with
  | nil => simp
  | last _ h => simpa using h
  | lf h _ _ ih =>
    intro l hl
    rcases List.mem_cons.1 hl with rfl | hl
    · exact h
    · exact ih l hl
  | crlf h _ ih =>
    intro l hl
    rcases List.mem_cons.1 hl with rfl | hl
    · exact h
    · exact ih l hl

theorem tidied_no_nl {ls ts : List (List Char)} (h : Tidied ls ts) (hl : ∀ l ∈ ls, '\n' ∉ l) :
    ∀ t ∈ ts, '\n' ∉ t := by
  induction h with
  | nil => simp
  | blank _ _ ih => exact ih (fun l h => hl l (by simp [h]))
  | @line l t ls ts _ ht _ ih =>
    intro t' ht'
    rcases List.mem_cons.1 ht' with rfl | ht'
    · obtain ⟨⟨a, b, e, _⟩, _⟩ := ht
      intro hn
      exact hl l (by simp) (by rw [e]; simp [hn])
    · exact ih (fun l h => hl l (by simp [h])) t' ht'

theorem field_from_json {doc : JSchema} {s : Schema} (h : Schema.ofJson doc = .ok s) {T : String} {t : JType}
    (ht : lastNamed JType.name T doc.types = some t) {fs : List JField} (hfs : ListsFields t fs)
    {n : String} {j : JField} (hj : lastNamed JField.name n fs = some j) :
    ∃ st m f, s.getType T = some st ∧ st.definition.fieldsLookup = some m ∧ AMap.get? m n = some f ∧
      FieldOfJson j f := by
  have h5 := C05_lookup_returns_what_the_document_says doc s h T
  rw [ht] at h5
  obtain ⟨st, h1, _, h2⟩ := h5
  have key : ∀ (m : FieldsLookup) (extra : String → Option SField), FieldsOfJson fs extra m →
      ∃ f, AMap.get? m n = some f ∧ FieldOfJson j f := by
    intro m extra hm
    have := hm n
    rw [hj] at this
    exact this
  revert h1 h2
  generalize hd : st.definition = D
  intro h1 h2
  rcases hfs with ⟨hk, hf⟩ | ⟨hk, hf⟩
  · cases h2 with
    | object fs' m h3 h4 h5 =>
      rw [hf] at h4
      injection h4 with h4
      subst h4
      obtain ⟨f, a, b⟩ := key m _ h5
      exact ⟨st, m, f, h1, by rw [hd]; rfl, a, b⟩
    | interface fs' ps m h3 h4 h6 h5 =>
      rw [hf] at h4
      injection h4 with h4
      subst h4
      obtain ⟨f, a, b⟩ := key m _ h5
      exact ⟨st, m, f, h1, by rw [hd]; rfl, a, b⟩
    | inputObject fs' m h3 => rw [h3] at hk; simp at hk
    | union ps m h3 => rw [h3] at hk; simp at hk
    | enum vs h3 => rw [h3] at hk; simp at hk
    | scalar h3 => rw [h3] at hk; simp at hk
  · cases h2 with
    | object fs' m h3 => rw [h3] at hk; simp at hk
    | interface fs' ps m h3 => rw [h3] at hk; simp at hk
    | inputObject fs' m h3 h4 h5 =>
      rw [hf] at h4
      injection h4 with h4
      subst h4
      obtain ⟨f, a, b⟩ := key m _ h5
      exact ⟨st, m, f, h1, by rw [hd]; rfl, a, b⟩
    | union ps m h3 => rw [h3] at hk; simp at hk
    | enum vs h3 => rw [h3] at hk; simp at hk
    | scalar h3 => rw [h3] at hk; simp at hk

/-- **C73.** A field description of the introspection document is printed line by line: the comment of the
field has exactly the lines of the description that are not blank, in order, each without the white space
around it and without comment brackets; one empty line if all lines are blank; then `@deprecated` exactly
if the document says the field is deprecated. -/
theorem C73_description_comment (doc : JSchema) (s : Schema) (h : Schema.ofJson doc = .ok s)
    (T : String) (t : JType) (ht : lastNamed JType.name T doc.types = some t)
    (fs : List JField) (hfs : ListsFields t fs) (n : String) (j : JField)
    (hj : lastNamed JField.name n fs = some j) (d : String) (hd : j.description = some d)
    (ls ts : List (List Char)) (hl : IsLines d.toList ls) (hts : Tidied ls ts) (indent : Nat) :
    ∃ st m f, s.getType T = some st ∧ st.definition.fieldsLookup = some m ∧ AMap.get? m n = some f ∧
      (compileDocumentation f.documentation f.deprecated indent).toList =
        comment indent ((if ts = [] then [[]] else ts.map cleanLine) ++
          if j.deprecated = some true then ["@deprecated".toList] else []) := by
  obtain ⟨st, m, f, h1, h2, h3, h4⟩ := field_from_json h ht hfs hj
  refine ⟨st, m, f, h1, h2, h3, ?_⟩
  rw [C26_doc_comment, h4.deprecated]
  have h5 := h4.documentation
  rw [hd] at h5
  obtain ⟨ls', ts', doc', a1, a2, a3, a4⟩ := h5
  rw [(isLines_iff _ _).1 hl] at hts
  rw [(isLines_iff _ _).1 a1] at a2
  rw [(tidied_iff _ _).1 a2, ← (tidied_iff _ _).1 hts] at a4
  have hn := tidied_no_nl hts (isLines_no_nl (isLines_lines _))
  have e : docLines f.documentation = if ts = [] then [[]] else ts.map cleanLine := by
    rw [a3]
    unfold docLines
    simp only
    rw [a4]
    by_cases h0 : ts = []
    · rw [if_pos h0, h0]
      rfl
    · rw [if_neg h0, splitNl_joinLines ts hn h0]
  rw [e]
  by_cases hdep : j.deprecated = some true <;> simp [hdep]

/-- A type whose descriptions have indentation, Windows line ends and blank lines. -/
def Demo.describedJson : JSchema := ⟨[
  { kind := "OBJECT", name := "Query", description := none, possibleTypes := none,
    inputFields := none, enumValues := none,
    fields := some [
      ⟨"me", some "\r\n  The user.\r\n\n  Not */ null.", .mk "SCALAR" (some "String") none, some true⟩,
      ⟨"blank", some " \n ", .mk "SCALAR" (some "String") none, none⟩] }]⟩

/-- The comments of the demo fields. -/
example : (∃ s, Schema.ofJson Demo.describedJson = .ok s) ∧
    IsLines "\r\n  The user.\r\n\n  Not */ null.".toList
      [[], "  The user.".toList, [], "  Not */ null.".toList] ∧
    Tidied [[], "  The user.".toList, [], "  Not */ null.".toList]
      ["The user.".toList, "Not */ null.".toList] ∧
    (match Schema.ofJson Demo.describedJson with
      | .error _ => none
      | .ok s => (s.getType "Query").bind (fun t => t.definition.fieldsLookup.bind (fun m =>
          (AMap.get? m "me").map (fun f => compileDocumentation f.documentation f.deprecated 2)))) =
      some "/**\n   * The user.\n   * Not  null.\n   * @deprecated\n   */\n  " ∧
    (match Schema.ofJson Demo.describedJson with
      | .error _ => none
      | .ok s => (s.getType "Query").bind (fun t => t.definition.fieldsLookup.bind (fun m =>
          (AMap.get? m "blank").map (fun f => compileDocumentation f.documentation f.deprecated 2)))) =
      some "/**\n   * \n   */\n  " :=
  ⟨⟨_, rfl⟩, (isLines_iff _ _).2 (by decide), (tidied_iff _ _).2 (by decide), by decide +kernel,
    by decide +kernel⟩

end Qlc
