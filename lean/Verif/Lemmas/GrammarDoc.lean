import Verif.Lemmas.GrammarFile
import Verif.Lemmas.Inhabit
import Verif.Lemmas.Text
/-
When the file generated for a document can be read back: where its names and descriptions come from.
-/
set_option autoImplicit false

namespace Qlc
open Spec

/-! ### Descriptions -/

theorem remove2_ws {a b : Char} (ha : isWs a = false) : ∀ (ws t : List Char), (∀ c ∈ ws, isWs c = true) →
    remove2 a b (ws ++ t) = ws ++ remove2 a b t
  | [], t, _ => rfl
  | c :: ws, t, h => by
    have hc : c ≠ a := by
      rintro rfl
      rw [h c (by simp)] at ha; simp at ha
    have ih := remove2_ws ha (b := b) ws t (fun d hd => h d (by simp [hd]))
    cases hws : ws ++ t with
    | nil => simp only [List.cons_append]; rw [hws] at ih ⊢; rw [← ih]; rfl
    | cons d rest =>
      simp only [List.cons_append]
      rw [hws] at ih ⊢
      rw [remove2, if_neg (by simp [hc]), ih]

theorem remove2_ws_after {a b : Char} (ha : isWs a = false) (hb : isWs b = false) :
    ∀ (n : Nat) (t ws : List Char), t.length ≤ n → (∀ c ∈ ws, isWs c = true) →
    remove2 a b (t ++ ws) = remove2 a b t ++ ws
  | _, [], ws, _, h => by
    have := remove2_ws ha (b := b) ws [] h
    simpa [remove2] using this
  | _, [c], ws, _, h => by
    cases ws with
    | nil => rfl
    | cons w ws =>
      have hw : w ≠ b := by
        rintro rfl
        rw [h w (by simp)] at hb; simp at hb
      have := remove2_ws ha (b := b) (w :: ws) [] h
      simp only [List.append_nil] at this
      simp only [List.cons_append, List.nil_append]
      have e : remove2 a b (c :: w :: ws) = c :: remove2 a b (w :: ws) := by
        rw [remove2.eq_3, if_neg (by simp [hw])]
      rw [e, this]
      simp [remove2]
  | n + 1, c :: d :: rest, ws, hl, h => by
    simp only [List.cons_append]
    rw [remove2, remove2]
    simp only [List.length_cons] at hl
    split
    · exact remove2_ws_after ha hb n rest ws (by omega) h
    · have := remove2_ws_after ha hb n (d :: rest) ws (by simp; omega) h
      simp only [List.cons_append] at this
      rw [this, List.cons_append]
  | 0, c :: d :: rest, ws, hl, h => by simp at hl

theorem breaksOut_ws {pre t post : List Char} (h1 : ∀ c ∈ pre, isWs c = true) (h2 : ∀ c ∈ post, isWs c = true)
    (h : BreaksOut t) : BreaksOut (pre ++ t ++ post) := by
  obtain ⟨p, k, q, e⟩ := h
  refine ⟨pre ++ p, k, q ++ post, ?_⟩
  rw [remove2_ws_after (by decide) (by decide) _ _ _ (Nat.le_refl _) h2, remove2_ws (by decide) _ _ h1, e]
  simp

theorem splitNl_pieces_noNl : ∀ (cs : List Char), ∀ l ∈ splitNl cs, '\n' ∉ l
  | [], l, hl => by simp [splitNl] at hl; subst hl; simp
  | c :: cs, l, hl => by
    rw [splitNl] at hl
    split at hl
    · rcases List.mem_cons.1 hl with rfl | hl
      · simp
      · exact splitNl_pieces_noNl cs l hl
    · rename_i hc
      have ih := splitNl_pieces_noNl cs
      cases hs : splitNl cs with
      | nil => exact absurd hs (splitNl_ne_nil cs)
      | cons p ps =>
        rw [hs] at hl ih
        simp only at hl
        rcases List.mem_cons.1 hl with rfl | hl
        · have := ih p (by simp)
          simp only [List.mem_cons, not_or]
          exact ⟨fun e => hc e.symm, this⟩
        · exact ih l (by simp [hl])

/-- A line, as `str::lines` gives it, is a piece between line feeds up to a carriage return. -/
theorem mem_linesC {cs l : List Char} (h : l ∈ linesC cs) :
    ∃ p ∈ splitNl cs, ∃ post, p = l ++ post ∧ ∀ c ∈ post, isWs c = true := by
  have hdrop : ∀ l ∈ (splitNl cs).dropLast.map stripCr, ∃ p ∈ splitNl cs, ∃ post, p = l ++ post ∧
      ∀ c ∈ post, isWs c = true := by
    intro l hl
    obtain ⟨p, hp, rfl⟩ := List.mem_map.1 hl
    refine ⟨p, List.dropLast_subset _ hp, ?_⟩
    unfold stripCr
    split
    · rename_i hr
      refine ⟨['\r'], ?_, by simp; decide⟩
      obtain ⟨ys, rfl⟩ := List.getLast?_eq_some_iff.1 hr
      simp
    · exact ⟨[], by simp, by simp⟩
  unfold linesC at h
  simp only at h
  split at h
  · exact hdrop l h
  · rcases List.mem_append.1 h with h | h
    · exact hdrop l h
    · rw [List.mem_singleton] at h
      subst h
      cases hl : (splitNl cs).getLast? with
      | none => rw [List.getLast?_eq_none_iff] at hl; exact absurd hl (splitNl_ne_nil cs)
      | some p => exact ⟨p, List.mem_of_getLast? hl, [], by simp, by simp⟩

theorem splitNl_join : ∀ (ls : List (List Char)), ls ≠ [] → (∀ l ∈ ls, '\n' ∉ l) →
    splitNl (joinWith "\n" (ls.map String.ofList)).toList = ls
  | [], h, _ => absurd rfl h
  | [l], _, hl => by
    simp only [List.map_cons, List.map_nil, joinWith, String.toList_ofList]
    exact splitNl_none (hl l (by simp))
  | l :: m :: ls, _, hl => by
    have ih := splitNl_join (m :: ls) (by simp) (fun x hx => hl x (by simp only [List.mem_cons] at hx ⊢; tauto))
    simp only [List.map_cons, joinWith, String.toList_append, String.toList_ofList] at ih ⊢
    have : ("\n" : String).toList = ['\n'] := rfl
    rw [this, List.append_assoc]
    refine (splitNl_nl (hl l (by simp)) _).trans ?_
    exact congrArg (l :: ·) ih

/-- Normalizing a description does not make it close its comment. -/
theorem docOk_normalize {d : Option String} (h : DocOk d) : DocOk (d.map normalizeDocs) := by
  cases d with
  | none => intro x hx; simp at hx
  | some d =>
    intro x hx line hline
    simp only [Option.map_some, Option.some.injEq] at hx
    subst hx
    have hlines : ∀ l ∈ (linesC d.toList).map trimC, ¬ BreaksOut l ∧ '\n' ∉ l := by
      intro l hl
      obtain ⟨m, hm, rfl⟩ := List.mem_map.1 hl
      obtain ⟨p, hp, post, rfl, hpost⟩ := mem_linesC hm
      obtain ⟨⟨w, w', h1, h2, h3⟩, _⟩ := trimmed_trimC m
      have hnl := splitNl_pieces_noNl _ _ hp
      constructor
      · intro hb
        refine h d rfl _ hp ?_
        rw [h1, List.append_assoc]
        refine breaksOut_ws (fun c hc => (isWs_iff c).2 (h2 c hc)) (post := w' ++ post) ?_ hb
        intro c hc
        rcases List.mem_append.1 hc with hc | hc
        · exact (isWs_iff c).2 (h3 c hc)
        · exact hpost c hc
      · intro hn
        apply hnl
        rw [h1]
        simp [hn]
    unfold normalizeDocs at hline
    cases hf : ((linesC d.toList).map trimC).filter (fun l => !l.isEmpty) with
    | nil =>
      rw [hf] at hline
      simp only [List.map_nil, joinWith] at hline
      simp only [String.toList_empty, splitNl, List.mem_singleton] at hline
      subst hline
      rintro ⟨p, k, q, e⟩
      simp [remove2] at e
    | cons a as =>
      rw [hf, splitNl_join (a :: as) (by simp)] at hline
      · rw [← hf] at hline
        exact (hlines _ (List.mem_filter.1 hline).1).1
      · intro l hl
        rw [← hf] at hl
        exact (hlines _ (List.mem_filter.1 hl).1).2

/-! ### Response keys -/

section
variable {schema : Schema} {frags : Frags} {Q : String → Prop}

theorem fieldKeys_cons {s : Selection} {rest : List Selection} (h : ∀ k ∈ fieldKeys (s :: rest), Q k) :
    (∀ k ∈ fieldKeysSel s, Q k) ∧ ∀ k ∈ fieldKeys rest, Q k := by
  rw [fieldKeys] at h
  exact ⟨fun k hk => h k (List.mem_append_left _ hk), fun k hk => h k (List.mem_append_right _ hk)⟩

theorem collX_fieldKeys {T : String} (hfr : ∀ name fd, AMap.get? frags name = some fd → ∀ k ∈ fieldKeys fd.items, Q k)
    {loc : Bool} {P : String} {items : List Selection} {L : List Contribution}
    (h : CollX schema frags T loc P items L) : (∀ k ∈ fieldKeys items, Q k) →
    ∀ c ∈ L, (∀ k ∈ fieldKeys c.items, Q k) ∧ Q c.key := by
  induction h with
  | nil => intro _ c hc; simp at hc
  | field _ _ _ ih =>
    intro hp c hc
    have hp := fieldKeys_cons hp
    rw [fieldKeysSel] at hp
    rcases List.mem_cons.1 hc with rfl | hc
    · exact ⟨fun k hk => hp.1 k (List.mem_cons_of_mem _ hk), hp.1 _ List.mem_cons_self⟩
    · exact ih hp.2 c hc
  | fieldBad _ _ ih => intro hp; exact ih (fieldKeys_cons hp).2
  | inlineIn _ _ _ _ ih1 ih2 =>
    intro hp c hc
    have hp := fieldKeys_cons hp
    rw [fieldKeysSel] at hp
    rcases List.mem_append.1 hc with hc | hc
    · exact ih1 hp.1 c hc
    · exact ih2 hp.2 c hc
  | inlineOut _ _ ih => intro hp; exact ih (fieldKeys_cons hp).2
  | spreadIn hg _ _ _ _ ih1 ih2 =>
    intro hp c hc
    rcases List.mem_append.1 hc with hc | hc
    · exact ih1 (hfr _ _ hg) c hc
    · exact ih2 (fieldKeys_cons hp).2 c hc
  | spreadOut _ _ ih => intro hp; exact ih (fieldKeys_cons hp).2

theorem collManyX_fieldKeys {T : String}
    (hfr : ∀ name fd, AMap.get? frags name = some fd → ∀ k ∈ fieldKeys fd.items, Q k)
    {P : String} {sets : List (List Selection)} {L : List Contribution}
    (h : CollManyX schema frags T P sets L) (hp : ∀ s ∈ sets, ∀ k ∈ fieldKeys s, Q k) :
    ∀ c ∈ L, (∀ k ∈ fieldKeys c.items, Q k) ∧ Q c.key := by
  obtain ⟨Ls, h1, rfl⟩ := h
  intro c hc
  obtain ⟨L, hL, hc⟩ := List.mem_flatten.1 hc
  obtain ⟨s, hs, h⟩ := forall₂_mem h1 L hL
  exact collX_fieldKeys hfr h (hp s hs) c hc

theorem fieldKeys_under {ps qs : List Complex} (h : Under ps qs)
    (hfr : ∀ name fd, AMap.get? frags name = some fd → ∀ k ∈ fieldKeys fd.items, Q k)
    (ht : ∀ n, ∃ P sets, TreeIs schema (collectorX schema frags) n P sets ps ∧
      ∀ s ∈ sets, ∀ k ∈ fieldKeys s, Q k) :
    ∀ n, ∃ P sets, TreeIs schema (collectorX schema frags) n P sets qs ∧ ∀ s ∈ sets, ∀ k ∈ fieldKeys s, Q k := by
  induction h with
  | refl => exact ht
  | @step qs T fields fld sub _ hm hf hty ih =>
    intro n
    obtain ⟨P, sets, h, hp⟩ := ih (n + 1)
    obtain ⟨L, hL, _, slots, _, _, hF⟩ := h.2.2 T fields hm
    obtain ⟨s, _, hs⟩ := forall₂_mem hF fld hf
    obtain ⟨c, rest, e, _, _, _, _, _, h6⟩ := hs
    rw [hty] at h6
    refine ⟨_, _, h6.2, ?_⟩
    intro s' hs'
    obtain ⟨c', hc', rfl⟩ := List.mem_map.1 hs'
    exact (collManyX_fieldKeys hfr hL hp c' (List.mem_filter.1 hc').1).1

theorem collX_origin {T : String} {loc : Bool} {P : String} {items : List Selection} {L : List Contribution}
    (h : CollX schema frags T loc P items L) :
    ∀ c ∈ L, ∃ P₀ name, fieldOf schema P₀ name = some c.field := by
  induction h with
  | nil => intro c hc; simp at hc
  | field _ hf _ ih =>
    intro c hc
    rcases List.mem_cons.1 hc with rfl | hc
    · exact ⟨_, _, hf⟩
    · exact ih c hc
  | fieldBad _ _ ih => exact ih
  | inlineIn _ _ _ _ ih1 ih2 =>
    intro c hc
    rcases List.mem_append.1 hc with hc | hc
    · exact ih1 c hc
    · exact ih2 c hc
  | inlineOut _ _ ih => exact ih
  | spreadIn hg _ _ _ _ ih1 ih2 =>
    intro c hc
    rcases List.mem_append.1 hc with hc | hc
    · exact ih1 c hc
    · exact ih2 c hc
  | spreadOut _ _ ih => exact ih

theorem collManyX_origin {T : String} {P : String} {sets : List (List Selection)} {L : List Contribution}
    (h : CollManyX schema frags T P sets L) : ∀ c ∈ L, ∃ P₀ name, fieldOf schema P₀ name = some c.field := by
  obtain ⟨Ls, h1, rfl⟩ := h
  intro c hc
  obtain ⟨L, hL, hc⟩ := List.mem_flatten.1 hc
  obtain ⟨s, hs, h⟩ := forall₂_mem h1 L hL
  exact collX_origin h c hc

theorem fieldKeys_of_tree {ps : List Complex}
    (hfr : ∀ name fd, AMap.get? frags name = some fd → ∀ k ∈ fieldKeys fd.items, Q k)
    (ht : ∀ n, ∃ P sets, TreeIs schema (collectorX schema frags) n P sets ps ∧
      ∀ s ∈ sets, ∀ k ∈ fieldKeys s, Q k) :
    ∀ qs, Under ps qs → ∀ T fields, Complex.mk T fields ∈ qs → ∀ fld ∈ fields, Q fld.propName := by
  intro qs hu T fields hm fld hf
  obtain ⟨P, sets, h, hp⟩ := fieldKeys_under hu hfr ht 1
  obtain ⟨L, hL, _, slots, _, _, hF⟩ := h.2.2 T fields hm
  obtain ⟨s, _, hs⟩ := forall₂_mem hF fld hf
  obtain ⟨c, rest, e, h1, _, _, _, _, h6⟩ := hs
  rw [h1]
  have hcs : c ∈ sameSlot L s.1 s.2 := by rw [e]; simp
  exact (collManyX_fieldKeys hfr hL hp c (List.mem_filter.1 hcs).1).2

end

/-! ### Trees -/

/-- At every nested position, everything printed can be read back, and the names from elsewhere are such that
`Q`. -/
def Printable (cfg : TsConfig) (Q : Flat → Prop) (ps : List Complex) : Prop :=
  ∀ qs, Under ps qs → ∀ T fields, Complex.mk T fields ∈ qs → IsGqlName T ∧ ∀ fld ∈ fields,
    IsGqlName fld.propName ∧ DocOk fld.documentation ∧
    match fld.type with
    | .complex _ => True
    | .enum n => IsBinding n ∧ Q (.global n)
    | .scalar s => IsTypeRef (scalarFlat cfg s).text ∧ Q (scalarFlat cfg s)
    | .typeName => fld.last = .none ∧ fld.rest = []

theorem scalarText_ref {cfg : TsConfig} {doc : JSchema} (hw : Writable cfg doc) {n : String}
    (h : kindNamed doc n = some "SCALAR") : IsTypeRef (scalarFlat cfg (.custom n)).text := by
  have := hw.scalars n h
  cases hb : cfg.bottomTypeConfig with
  | defaultBottomType =>
    simp only [scalarFlat, hb]
    decide
  | realName => rw [hb] at this; simp only [scalarFlat, hb]; exact this
  | realNameWithPrefix p => rw [hb] at this; simp only [scalarFlat, hb]; exact this

/-- Where the names and descriptions of the tree come from. -/
theorem printable_of_tree {doc : JSchema} {schema : Schema} {frags : Frags} {cfg : TsConfig}
    {Q : Flat → Prop} (hv : ValidDoc doc) (hs : Schema.ofJson doc = .ok schema) {ps : List Complex}
    (hw : Writable cfg doc) (hQ : ∀ fl, FromSchema cfg doc fl → Q fl)
    (hkf : ∀ name fd, AMap.get? frags name = some fd → ∀ k ∈ fieldKeys fd.items, IsGqlName k)
    (htx : ∀ n, ∃ P sets, TreeIs schema (collectorX schema frags) n P sets ps ∧
      ∀ s ∈ sets, ∀ k ∈ fieldKeys s, IsGqlName k) :
    Printable cfg Q ps := by
  intro qs hu T fields hm
  obtain ⟨P, sets, h, _⟩ := fieldKeys_under hu hkf htx 1
  have hTP : T ∈ possibleTypes schema P := (h.2.1 T).1 (List.mem_map.2 ⟨_, hm, rfl⟩)
  rw [loaded_possible hs] at hTP
  refine ⟨hw.objects P T hTP, ?_⟩
  intro fld hf
  refine ⟨fieldKeys_of_tree hkf htx qs hu T fields hm fld hf, ?_⟩
  obtain ⟨L, hL, _, slots, _, _, hF⟩ := h.2.2 T fields hm
  obtain ⟨s, _, c, rest, e, h1, h2, _, h4, h5, h6⟩ := forall₂_mem hF fld hf
  have hcs : c ∈ sameSlot L s.1 s.2 := by rw [e]; simp
  have hcL := (List.mem_filter.1 hcs).1
  obtain ⟨P₀, _, hfo⟩ := collManyX_origin hL c hcL
  have horig := loaded_field hs hv.reserved hfo
  constructor
  · rw [h2]
    rcases horig with ⟨_, e'⟩ | ⟨_, j, hl, hj⟩
    · rw [e']; intro d hd; simp [SField.newTypeName] at hd
    · have : c.field.documentation = j.description.map normalizeDocs := by
        unfold SField.ofJson at hj
        cases ht : FieldType.ofJson j.typeInformation with
        | error e => simp [ht] at hj
        | ok ft => simp only [ht] at hj; injection hj with hj; rw [← hj]
      rw [this]
      exact docOk_normalize (hw.docs P₀ j (lastNamed_name hl).1)
  cases hty : fld.type with
  | complex sub => trivial
  | enum n =>
    rw [hty] at h6
    obtain ⟨hd, rfl⟩ := h6
    rcases horig with ⟨_, e'⟩ | ⟨_, j, hl, hj⟩
    · rw [e'] at hd; simp [SField.newTypeName, FieldType.newTypeName] at hd
    · obtain ⟨k, t, _, _, hk, hkn, _, hn, hdef, _⟩ := loaded_declared hv hl hj
      have hen : kindNamed doc c.field.type.name = some "ENUM" → IsBinding c.field.type.name ∧
          Q (.global c.field.type.name) := fun hk => ⟨hw.enums _ hk, hQ _ hk⟩
      refine hen ?_
      rcases def_of_kind hk hdef with ⟨_, hx, _⟩ | ⟨_, hx⟩ | ⟨rfl, _⟩
      · rw [hd] at hx; simp [FieldTypeDef.isComplex] at hx
      · rw [hd] at hx; simp at hx
      · rw [hn]; exact hkn
  | scalar sc =>
    rw [hty] at h6
    have hd : c.field.type.definition = .scalar sc := h6
    rcases horig with ⟨_, e'⟩ | ⟨_, j, hl, hj⟩
    · rw [e'] at hd; simp [SField.newTypeName, FieldType.newTypeName] at hd
    · obtain ⟨k, t, _, _, hk, hkn, _, hn, hdef, _⟩ := loaded_declared hv hl hj
      rcases def_of_kind hk hdef with ⟨_, hx, _⟩ | ⟨rfl, hx⟩ | ⟨_, hx⟩
      · rw [hd] at hx; simp [FieldTypeDef.isComplex] at hx
      · rw [hd] at hx
        injection hx with hx
        have hcustom : ∀ m, sc = .custom m → m = baseName t := by
          rintro m rfl
          unfold ScalarType.ofName at hx
          repeat' split at hx
          all_goals injection hx
        cases sc with
        | custom m =>
          have := hcustom m rfl
          subst this
          refine ⟨scalarText_ref hw hkn, hQ _ ?_⟩
          unfold scalarFlat
          cases hb : cfg.bottomTypeConfig with
          | defaultBottomType => simp [FromSchema]
          | realName => exact ⟨_, hkn, by rw [hb]⟩
          | realNameWithPrefix p => exact ⟨_, hkn, by rw [hb]⟩
        | _ =>
          simp only [scalarFlat]
          exact ⟨by decide, hQ _ (by simp [FromSchema])⟩
      · rw [hd] at hx; simp at hx
  | typeName =>
    rw [hty] at h6
    have hd : c.field.type.definition = .typeName := h6
    rw [h4, h5]
    rcases horig with ⟨_, e'⟩ | ⟨_, j, hl, hj⟩
    · rw [e']; exact ⟨rfl, rfl⟩
    · obtain ⟨k, t, _, _, hk, hkn, _, hn, hdef, _⟩ := loaded_declared hv hl hj
      rcases def_of_kind hk hdef with ⟨_, hx, _⟩ | ⟨_, hx⟩ | ⟨_, hx⟩
      · rw [hd] at hx; simp [FieldTypeDef.isComplex] at hx
      · rw [hd] at hx; simp at hx
      · rw [hd] at hx; simp at hx

/-! ### Names of declarations -/

theorem reserved_plain : ∀ w ∈ reservedWords ++ predefinedTypes, '_' ∉ w.toList := by decide

theorem isIdent_append {a b : List Char} (ha : IsIdent a)
    (hb : ∀ c ∈ b, c.isAlphanum = true ∨ c = '_' ∨ c = '$') : IsIdent (a ++ b) := by
  obtain ⟨⟨c, hc, hd⟩, h2⟩ := ha
  refine ⟨⟨c, ?_, hd⟩, ?_⟩
  · cases a with
    | nil => simp at hc
    | cons x xs => simpa using hc
  · intro x hx
    rcases List.mem_append.1 hx with hx | hx
    · exact h2 x hx
    · exact hb x hx

/-- Names continued by an underscore are not reserved. -/
theorem isBinding_under {main part : String} (h : IsIdent main.toList)
    (hp : ∀ c ∈ part.toList, c.isAlphanum = true ∨ c = '_' ∨ c = '$') : IsBinding (main ++ "_" ++ part) := by
  have hmem : '_' ∈ (main ++ "_" ++ part).toList := by simp
  refine ⟨?_, ?_, ?_⟩
  · rw [String.toList_append, String.toList_append, List.append_assoc]
    refine isIdent_append h ?_
    intro c hc
    rcases List.mem_append.1 hc with hc | hc
    · right; left; simpa using hc
    · exact hp c hc
  · intro hr; exact reserved_plain _ (List.mem_append_left _ hr) hmem
  · intro hr; exact reserved_plain _ (List.mem_append_right _ hr) hmem

theorem isBinding_variables {s : String} (h : IsIdent s.toList) : IsBinding (s ++ "Variables") := by
  have hlit : "Variables".toList = ['V', 'a', 'r', 'i', 'a', 'b', 'l', 'e', 's'] := rfl
  have hmem : 'V' ∈ (s ++ "Variables").toList := by rw [String.toList_append, hlit]; simp
  have hno : ∀ w ∈ reservedWords ++ predefinedTypes, 'V' ∉ w.toList := by decide
  refine ⟨?_, ?_, ?_⟩
  · rw [String.toList_append]
    refine isIdent_append h ?_
    rw [hlit]
    decide
  · intro hr; exact hno _ (List.mem_append_left _ hr) hmem
  · intro hr; exact hno _ (List.mem_append_right _ hr) hmem

theorem gql_chars {s : String} (h : IsGqlName s) : ∀ c ∈ s.toList, c.isAlphanum = true ∨ c = '_' ∨ c = '$' :=
  fun c hc => by rcases h.2.2 c hc with h | h <;> simp [h]

theorem altsNodup_sub {ps sub : List Complex} (h : AltsNodup ps) (hu : Under ps sub) : AltsNodup sub :=
  fun qs hq => h qs (Under.trans hu hq)

theorem flatOk_ref {last : Mod} {rest : List Mod} {f : Flat} (hn : ∀ ns, f ≠ .literals ns)
    (h : IsTypeRef f.text) : FlatOk last rest f := by
  cases f with
  | literals ns => exact absurd rfl (hn ns)
  | _ => exact h

theorem scalarFlat_plain (cfg : TsConfig) (s : ScalarType) : (∀ ns, scalarFlat cfg s ≠ .literals ns) ∧
    ∀ n, scalarFlat cfg s ≠ .global n := by
  cases s with
  | custom n => cases hb : cfg.bottomTypeConfig <;> simp [scalarFlat, hb]
  | _ => simp [scalarFlat]

theorem flatOk_type {cfg : TsConfig} {lits : List String} {sub : String} {fld : IRField} {main : String}
    {Q : Flat → Prop}
    (hl : lits ≠ []) (hls : ∀ l ∈ lits, StrOk l.toList) (hm : IsIdent main.toList)
    (hs : sub = main ++ "_" ++ fld.propName)
    (hf : IsGqlName fld.propName ∧ DocOk fld.documentation ∧
      match fld.type with
      | .complex _ => True
      | .enum n => IsBinding n ∧ Q (.global n)
      | .scalar s => IsTypeRef (scalarFlat cfg s).text ∧ Q (scalarFlat cfg s)
      | .typeName => fld.last = .none ∧ fld.rest = []) :
    FlatOk fld.last fld.rest (aType cfg lits sub fld.type).2 := by
  subst hs
  obtain ⟨h1, _, h3⟩ := hf
  cases hty : fld.type with
  | complex ps =>
    rw [aType]
    exact (isBinding_under hm (gql_chars h1)).ref
  | enum n => rw [hty] at h3; rw [aType]; exact Spec.IsBinding.ref h3.1
  | scalar s =>
    rw [hty] at h3
    rw [aType]
    exact flatOk_ref (scalarFlat_plain cfg s).1 h3.1
  | typeName =>
    rw [hty] at h3
    rw [aType]
    exact ⟨hl, hls, h3.1, h3.2⟩

/-- References of an object type are to the same file, to literals, or such that `Q`. -/
def RefsOk (Q : Flat → Prop) (d : TsDecl) : Prop :=
  ∀ m props, d = .object m props → ∀ p ∈ props, (∃ n, p.flat = .declared n) ∨ (∃ ls, p.flat = .literals ls) ∨
    Q p.flat

/-- The declarations for a position can be read back. -/
theorem coll_declOk (cfg : TsConfig) (Q : Flat → Prop) (n : Nat) : ∀ (ps : List Complex), sizeOf ps ≤ n →
    Printable cfg Q ps → AltsNodup ps → ∀ (main : String), IsBinding main →
    (∀ m, TsDecl.union m [] ∉ collDecls cfg ps main) → ∀ d ∈ collDecls cfg ps main,
    DeclOk d ∧ (∀ n ∈ enumsIn [d], IsBinding n) ∧ RefsOk Q d := by
  induction n with
  | zero => intro ps hs; exfalso; cases ps <;> simp at hs
  | succ n ih =>
    intro ps hs hp hal main hmain hne d hd
    have hpath : ∀ b ∈ bodies ps main, IsBinding b.path := by
      intro b hb
      cases hu : isUnion ps with
      | false => rw [bodies_single hu b hb]; exact hmain
      | true =>
        rcases (bodies_union hu).1 b hb with ⟨e, _⟩ | e
        · rw [e]
          have hm := (mem_bodies hb).1
          rcases hr : b.rep with ⟨T, fields⟩
          rw [hr] at hm
          exact isBinding_under hmain.1 (gql_chars (hp ps .refl T fields hm).1)
        · rw [e, other_eq]
          exact isBinding_under hmain.1 (by decide)
    rcases mem_collDecls.1 hd with ⟨b, hb, hd⟩ | ⟨_, rfl⟩
    · have hm := (mem_bodies hb).1
      have hlits : ∀ l ∈ b.lits, StrOk l.toList := by
        intro l hl
        obtain ⟨⟨T, fields⟩, hc, rfl⟩ := List.mem_map.1 ((bodies_cover (hal ps .refl) main l).2 ⟨b, hb, hl⟩)
        exact isIdent_strOk (hp ps .refl T fields hc).1.1
      have hall := hpath b hb
      have hd' := hd
      unfold Body.decls at hd
      rcases mem_objDecls.1 hd with ⟨fld, hf, sub, hty, hd⟩ | rfl
      · obtain ⟨rep, lits, path⟩ := b
        obtain ⟨T, fields⟩ := rep
        have := sizeOf_sub hm hf hty
        have hu : Under ps sub := .step .refl hm hf hty
        refine ih sub (by omega) (fun qs h => hp qs (under_head hm hf hty h)) (altsNodup_sub hal hu) _
          (isBinding_under hall.1 (gql_chars ((hp ps .refl T fields hm).2 fld hf).1)) ?_ d hd
        intro m hmem
        refine hne m (mem_collDecls.2 (.inl ⟨_, hb, ?_⟩))
        unfold Body.decls
        exact mem_objDecls.2 (.inl ⟨fld, hf, sub, hty, hmem⟩)
      · obtain ⟨rep, lits, path⟩ := b
        obtain ⟨T, fields⟩ := rep
        refine ⟨⟨hall, ?_⟩, ?_, ?_⟩
        · intro p hpp
          rw [aFields_props] at hpp
          obtain ⟨fld, hf, rfl⟩ := List.mem_map.1 hpp
          have hfld := (hp ps .refl T fields hm).2 fld hf
          exact ⟨hfld.1.1, hfld.2.1, flatOk_type (mem_bodies hb).2 hlits hall.1 rfl hfld⟩
        · intro e he
          simp only [enumsIn, List.flatMap_cons, List.flatMap_nil, List.append_nil] at he
          obtain ⟨p, hpp, he⟩ := List.mem_flatMap.1 he
          rw [aFields_props] at hpp
          obtain ⟨fld, hf, rfl⟩ := List.mem_map.1 hpp
          have hfld := (hp ps .refl T fields hm).2 fld hf
          cases hty : fld.type with
          | enum n =>
            rw [hty] at hfld he
            simp only [aType, List.mem_singleton] at he
            subst he
            exact hfld.2.2.1
          | complex sub => rw [hty] at he; simp [aType] at he
          | typeName => rw [hty] at he; simp [aType] at he
          | scalar s =>
            rw [hty] at he
            simp only [aType] at he
            rw [scalarFlat_not_global] at he
            simp at he
        · intro m props e p hpp
          injection e with _ e
          subst e
          rw [aFields_props] at hpp
          obtain ⟨fld, hf, rfl⟩ := List.mem_map.1 hpp
          have hfld := (hp ps .refl T fields hm).2 fld hf
          simp only
          cases hty : fld.type with
          | enum n => rw [hty] at hfld; exact .inr (.inr (by rw [aType]; exact hfld.2.2.2))
          | complex sub => exact .inl (by rw [aType]; exact ⟨_, rfl⟩)
          | typeName => exact .inr (.inl (by rw [aType]; exact ⟨_, rfl⟩))
          | scalar s => rw [hty] at hfld; exact .inr (.inr (by rw [aType]; exact hfld.2.2.2))
    · refine ⟨⟨hmain, ?_, ?_⟩, by simp [enumsIn], by intro m props e; simp at e⟩
      · intro e
        rw [e] at hd
        exact hne main hd
      · intro a ha
        obtain ⟨b, hb, rfl⟩ := List.mem_map.1 ha
        exact (hpath b hb).ref

/-! ### Files -/

theorem scalar_kind {j : JType} {m : String} (h : TypeDef.ofJson j = .ok (.scalar m)) : j.kind = "SCALAR" := by
  unfold TypeDef.ofJson at h
  repeat' split at h
  all_goals first | assumption | simp at h

theorem varFlat_ok {cfg : TsConfig} {doc : JSchema} {schema : Schema} (hs : Schema.ofJson doc = .ok schema)
    (hw : Writable cfg doc) {vs : List Variable} (hvs : VarsWritable schema vs) {v : Variable} (hv : v ∈ vs) :
    (∀ n, varFlat cfg schema v.type = .global n → IsBinding n) ∧
    FlatOk v.modifier [] (varFlat cfg schema v.type) := by
  cases hty : v.type with
  | custom n =>
    unfold varFlat
    simp only
    split
    · rename_i m hd
      constructor
      · intro k hk
        exact absurd hk ((scalarFlat_plain cfg _).2 k)
      · refine flatOk_ref (scalarFlat_plain cfg _).1 (scalarText_ref hw ?_)
        have ht := loaded_type hs n
        unfold kindNamed
        cases hj : typeNamed doc n with
        | none => rw [hj] at ht; simp only at ht; rw [ht] at hd; simp at hd
        | some j =>
          rw [hj] at ht
          obtain ⟨t, ht, hdef⟩ := ht
          rw [ht] at hd
          simp only [Option.map_some, Option.some.injEq] at hd ⊢
          rw [hd] at hdef
          exact scalar_kind hdef
    · rename_i hd
      have hb : IsBinding n := by
        refine (hvs v hv).2 n hty ?_
        intro t s ht he
        refine hd s ?_
        rw [ht]
        simp [he]
      exact ⟨fun k hk => by injection hk with hk; subst hk; exact hb, hb.ref⟩
  | _ =>
    constructor
    · intro n hn; simp [varFlat] at hn
    · simp only [varFlat]; exact flatOk_ref (by simp) (by decide)

/-- The generated file can be read back. -/
theorem fileOk_of_compile {Q : Flat → Prop} {ω : Hash} {cfg : TsConfig} {doc : JSchema} {schema : Schema} {op : Operation}
    {c : Compile} (hs : Schema.ofJson doc = .ok schema) (hw : Writable cfg doc)
    (hc : compileIr ω op cfg schema = .ok c) (hmain : IsBinding op.name)
    (hp : Printable cfg Q op.collection) (hal : AltsNodup op.collection)
    (hvs : VarsWritable schema (op.variables.getD [])) : FileOk (tsFile ω cfg schema op) ∧
      ∀ d ∈ (tsFile ω cfg schema op).decls, RefsOk Q d := by
  obtain ⟨_, _, h3, _⟩ := compileIr_agrees hc
  have hd := coll_declOk cfg Q _ op.collection (Nat.le_refl _) hp hal op.name hmain h3.2
  refine ⟨⟨?_, hw.docModule, ?_, fun _ => hw.globalsModule, fun d hdm => (hd d hdm).1, ?_, ?_⟩,
    fun d hdm => (hd d hdm).2.2⟩
  · show IsBinding (docNodeName op.kind)
    cases op.kind <;> decide
  · intro g hg
    have hg : g ∈ enumsIn (collDecls cfg op.collection op.name) ++
        varGlobals cfg schema (op.variables.getD []) := by
      have : g ∈ sortStr _ := hg
      rw [mem_sortStr, mem_foldl_setInsert] at this
      simpa using this
    rcases List.mem_append.1 hg with hg | hg
    · unfold enumsIn at hg
      obtain ⟨d, hdm, hg⟩ := List.mem_flatMap.1 hg
      refine (hd d hdm).2.1 g ?_
      unfold enumsIn
      exact List.mem_flatMap.2 ⟨d, by simp, hg⟩
    · unfold varGlobals at hg
      obtain ⟨v, hv, hg⟩ := List.mem_flatMap.1 hg
      split at hg
      · rename_i n hn
        rw [List.mem_singleton] at hg
        subst hg
        exact (varFlat_ok hs hw hvs hv).1 _ hn
      · simp at hg
  · intro n vs hvv
    have hvv : op.variables.map (fun vs => (op.name ++ "Variables",
      (sortedVars ω cfg schema vs).map (tsVar cfg schema))) = some (n, vs) := hvv
    cases ho : op.variables with
    | none => rw [ho] at hvv; simp at hvv
    | some ws =>
      rw [ho] at hvv hvs
      simp only [Option.map_some, Option.some.injEq, Prod.mk.injEq] at hvv
      obtain ⟨rfl, rfl⟩ := hvv
      refine ⟨isBinding_variables hmain.1, ?_⟩
      intro p hpp
      obtain ⟨v, hv, rfl⟩ := List.mem_map.1 hpp
      have hv' : v ∈ ws := ((sortedVars_perm ω cfg schema ws).mem_iff).1 hv
      exact ⟨(hvs v hv').1.1, (varFlat_ok hs hw hvs hv').2⟩
  · have hv : IsTypeRef (op.name ++ "Variables") := (isBinding_variables hmain.1).ref
    have hn : IsTypeRef "never" := by decide
    unfold tsFile
    cases op.kind <;> cases op.variables <;> simp [hmain.ref, hv, hn]

end Qlc
