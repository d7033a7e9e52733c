import Verif.Lemmas.JsonText
/-
Reading JSON values: every spelling is read, and only spellings are.
-/
set_option autoImplicit false

namespace Qlc
open Spec

theorem parseWord_complete (w r : List Char) : parseWord w (w ++ r) = some r := by
  induction w with
  | nil => rfl
  | cons c w ih => rw [List.cons_append, parseWord, if_pos rfl, ih]

theorem parseWord_sound {w cs r : List Char} (h : parseWord w cs = some r) : cs = w ++ r := by
  induction w generalizing cs with
  | nil => simpa [parseWord] using h
  | cons c w ih =>
    cases cs with
    | nil => simp [parseWord] at h
    | cons d cs =>
      rw [parseWord] at h
      split at h
      · rename_i e
        rw [e, List.cons_append, ← ih h]
      · simp at h

/-! ### What values begin with -/

/-- Not white space, and nothing that closes or separates. -/
def Opening (c : Char) : Prop := isJsonSpace c = false ∧ c ≠ ']' ∧ c ≠ '}' ∧ c ≠ ',' ∧ c ≠ ':'

theorem digit_opening {c : Char} (h : Digit c) : Opening c ∧ c ≠ 'n' ∧ c ≠ 't' ∧ c ≠ 'f' ∧ c ≠ '"' ∧ c ≠ '[' ∧
    c ≠ '{' := by
  have all : ∀ c ∈ "0123456789".toList, (isJsonSpace c = false ∧ c ≠ ']' ∧ c ≠ '}' ∧ c ≠ ',' ∧ c ≠ ':') ∧ c ≠ 'n' ∧
      c ≠ 't' ∧ c ≠ 'f' ∧ c ≠ '"' ∧ c ≠ '[' ∧ c ≠ '{' := by decide +kernel
  exact all c h

theorem number_head {j : Json} {t : List Char} (h : NumberText j t) : ∃ c r, t = c :: r ∧ Opening c ∧ c ≠ 'n' ∧
    c ≠ 't' ∧ c ≠ 'f' ∧ c ≠ '"' ∧ c ≠ '[' ∧ c ≠ '{' := by
  cases h with
  | nat hd =>
    obtain ⟨c, r, rfl, hc⟩ := integer_head hd
    exact ⟨c, r, rfl, digit_opening hc⟩
  | num hs hd _ _ _ =>
    obtain ⟨c, r, rfl, hc⟩ := integer_head hd
    rcases hs with rfl | rfl
    · exact ⟨c, _, rfl, digit_opening hc⟩
    · exact ⟨'-', _, rfl, by unfold Opening; decide, by decide, by decide, by decide, by decide, by decide,
        by decide⟩

theorem spells_head {n : Nat} {j : Json} {t : List Char} (h : Spells n (.value j) t) :
    ∃ c r, t = c :: r ∧ Opening c := by
  cases h with
  | null => exact ⟨'n', _, rfl, by unfold Opening; decide⟩
  | true => exact ⟨'t', _, rfl, by unfold Opening; decide⟩
  | false => exact ⟨'f', _, rfl, by unfold Opening; decide⟩
  | number h =>
    obtain ⟨c, r, e, ho, _⟩ := number_head h
    exact ⟨c, r, e, ho⟩
  | str h =>
    obtain ⟨u, _, rfl⟩ := h
    exact ⟨'"', _, rfl, by unfold Opening; decide⟩
  | noItems _ => exact ⟨'[', _, rfl, by unfold Opening; decide⟩
  | arr _ => exact ⟨'[', _, rfl, by unfold Opening; decide⟩
  | noMembers _ => exact ⟨'{', _, rfl, by unfold Opening; decide⟩
  | obj _ => exact ⟨'{', _, rfl, by unfold Opening; decide⟩

/-- The first character that is not white space. -/
theorem skip_to {w : List Char} (hw : JsonBlank w) {c : Char} (hc : isJsonSpace c = false) (r : List Char) :
    skipSpace (w ++ c :: r) = c :: r := by rw [skipSpace_blank hw, skipSpace_cons hc]

theorem items_head {n : Nat} {js : List Json} {t : List Char} (h : Spells n (.items js) t) (r : List Char) :
    ∃ c r', skipSpace (t ++ r) = c :: r' ∧ c ≠ ']' := by
  cases h with
  | item hw ht hw' =>
    obtain ⟨c, r', rfl, ho⟩ := spells_head ht
    simp only [List.append_assoc, List.cons_append]
    exact ⟨c, _, skip_to hw ho.1 _, ho.2.1⟩
  | items hw ht hw' _ =>
    obtain ⟨c, r', rfl, ho⟩ := spells_head ht
    simp only [List.append_assoc, List.cons_append]
    exact ⟨c, _, skip_to hw ho.1 _, ho.2.1⟩

theorem members_head {n : Nat} {ms : List (String × Json)} {t : List Char} (h : Spells n (.members ms) t)
    (r : List Char) : ∃ c r', skipSpace (t ++ r) = c :: r' ∧ c ≠ '}' := by
  cases h with
  | member hw hq _ _ _ _ =>
    obtain ⟨u, _, rfl⟩ := hq
    simp only [List.append_assoc, List.cons_append]
    exact ⟨'"', _, skip_to hw (by decide) _, by decide⟩
  | members hw hq _ _ _ _ _ =>
    obtain ⟨u, _, rfl⟩ := hq
    simp only [List.append_assoc, List.cons_append]
    exact ⟨'"', _, skip_to hw (by decide) _, by decide⟩

/-! ### White space in front does not matter -/

theorem parseValue_skip (fuel depth : Nat) (cs : List Char) :
    parseValue fuel depth (skipSpace cs) = parseValue fuel depth cs := by
  cases fuel with
  | zero => rw [parseValue, parseValue]
  | succ fuel => rw [parseValue, parseValue, skipSpace_idem]

theorem parseItems_skip (fuel depth : Nat) (cs : List Char) :
    parseItems fuel depth (skipSpace cs) = parseItems fuel depth cs := by
  cases fuel with
  | zero => rw [parseItems, parseItems]
  | succ fuel => rw [parseItems, parseItems, parseValue_skip]

theorem parseMembers_skip (fuel depth : Nat) (cs : List Char) :
    parseMembers fuel depth (skipSpace cs) = parseMembers fuel depth cs := by
  cases fuel with
  | zero => rw [parseMembers, parseMembers]
  | succ fuel => rw [parseMembers, parseMembers, skipSpace_idem]

/-! ### Every spelling is read -/

/-- The tree is a number. -/
def Json.IsNumber : Json → Prop
  | .nat _ => True
  | .num _ => True
  | _ => False

/-- What reading a piece has to give. -/
def ReadsBack (n : Nat) : Piece → List Char → Prop
  | .value j, t => ∀ (fuel : Nat) (w r : List Char), 2 * t.length ≤ fuel → JsonBlank w → (j.IsNumber → NumberEnds r) →
      parseValue fuel (n + 1) (w ++ (t ++ r)) = some (j, r)
  | .items js, t => ∀ (fuel : Nat) (r : List Char), 2 * t.length + 1 ≤ fuel →
      parseItems fuel (n + 1) (t ++ ']' :: r) = some (js, r)
  | .members ms, t => ∀ (fuel : Nat) (r : List Char), 2 * t.length + 1 ≤ fuel →
      parseMembers fuel (n + 1) (t ++ '}' :: r) = some (ms, r)

theorem ends_blank {w : List Char} (hw : JsonBlank w) {c : Char} (hc : isJsonDigit c = false ∧ c ≠ '.' ∧ c ≠ 'e' ∧ c ≠ 'E')
    (r : List Char) : NumberEnds (w ++ c :: r) := by
  intro d r' e
  cases w with
  | nil =>
    simp only [List.nil_append, List.cons.injEq] at e
    rw [← e.1]
    exact hc
  | cons x w =>
    simp only [List.cons_append, List.cons.injEq] at e
    rw [← e.1]
    rcases hw x (List.mem_cons_self ..) with rfl | rfl | rfl | rfl <;> decide

theorem parseStr_text {s : String} {u : List Char} (hu : InsideText s.toList u) {fuel : Nat} {r : List Char}
    (hf : u.length + 1 ≤ fuel) : parseStr fuel (u ++ '"' :: r) = some (s.toList, r) :=
  parseStr_complete hu fuel r hf

theorem reads_back {n : Nat} {p : Piece} {t : List Char} (h : Spells n p t) : ReadsBack n p t := by
  induction h with
  | null =>
    intro fuel w r hf hw _
    cases fuel with
    | zero => simp at hf
    | succ fuel =>
      have e : w ++ ("null".toList ++ r) = w ++ 'n' :: ("ull".toList ++ r) := rfl
      rw [parseValue, e, skip_to hw (by decide)]
      simp only
      rw [if_pos (by trivial), parseWord_complete]
      rfl
  | true =>
    intro fuel w r hf hw _
    cases fuel with
    | zero => simp at hf
    | succ fuel =>
      have e : w ++ ("true".toList ++ r) = w ++ 't' :: ("rue".toList ++ r) := rfl
      rw [parseValue, e, skip_to hw (by decide)]
      simp only
      rw [if_neg (by decide), if_pos (by trivial), parseWord_complete]
      rfl
  | false =>
    intro fuel w r hf hw _
    cases fuel with
    | zero => simp at hf
    | succ fuel =>
      have e : w ++ ("false".toList ++ r) = w ++ 'f' :: ("alse".toList ++ r) := rfl
      rw [parseValue, e, skip_to hw (by decide)]
      simp only
      rw [if_neg (by decide), if_neg (by decide), if_pos (by trivial), parseWord_complete]
      rfl
  | @number n j t h =>
    intro fuel w r hf hw hr
    have hn : j.IsNumber := by cases h <;> trivial
    obtain ⟨c, r', rfl, ho, h1, h2, h3, h4, h5, h6⟩ := number_head h
    cases fuel with
    | zero => simp at hf
    | succ fuel =>
      have := parseNumber_complete h (hr hn)
      rw [List.cons_append] at this
      rw [List.cons_append, parseValue, skip_to hw ho.1]
      simp only
      rw [if_neg h1, if_neg h2, if_neg h3, if_neg h4, if_neg h5, if_neg h6, this]
  | @str n s t h =>
    intro fuel w r hf hw _
    obtain ⟨u, hu, rfl⟩ := h
    cases fuel with
    | zero => simp at hf
    | succ fuel =>
      simp only [List.length_cons, List.length_append, List.length_nil] at hf
      simp only [List.cons_append, List.append_assoc, List.nil_append]
      rw [parseValue, skip_to hw (by decide)]
      simp only
      rw [if_neg (by decide), if_neg (by decide), if_neg (by decide), if_pos (by trivial), parseStr_text hu (by omega)]
      simp only [Option.map_some, String.ofList_toList]
  | @noItems n v hv =>
    intro fuel w r hf hw _
    cases fuel with
    | zero => simp at hf
    | succ fuel =>
      simp only [List.cons_append, List.append_assoc, List.nil_append]
      rw [parseValue, skip_to hw (by decide)]
      simp only
      rw [if_neg (by decide), if_neg (by decide), if_neg (by decide), if_neg (by decide), if_pos (by trivial),
        if_neg (by omega), skip_to hv (by decide)]
      simp only
      rw [if_pos (by trivial)]
  | @arr n js t h ih =>
    intro fuel w r hf hw _
    cases fuel with
    | zero => simp at hf
    | succ fuel =>
      simp only [List.length_cons, List.length_append, List.length_nil] at hf
      simp only [List.cons_append, List.append_assoc, List.nil_append]
      obtain ⟨c, r', e, hc⟩ := items_head h (']' :: r)
      have hi := ih fuel r (by omega)
      rw [← parseItems_skip, e] at hi
      rw [parseValue, skip_to hw (by decide)]
      simp only
      rw [if_neg (by decide), if_neg (by decide), if_neg (by decide), if_neg (by decide), if_pos (by trivial),
        if_neg (by omega), e]
      simp only
      rw [if_neg hc, Nat.add_sub_cancel, hi]
      rfl
  | @noMembers n v hv =>
    intro fuel w r hf hw _
    cases fuel with
    | zero => simp at hf
    | succ fuel =>
      simp only [List.cons_append, List.append_assoc, List.nil_append]
      rw [parseValue, skip_to hw (by decide)]
      simp only
      rw [if_neg (by decide), if_neg (by decide), if_neg (by decide), if_neg (by decide), if_neg (by decide),
        if_pos (by trivial), if_neg (by omega), skip_to hv (by decide)]
      simp only
      rw [if_pos (by trivial)]
  | @obj n ms t h ih =>
    intro fuel w r hf hw _
    cases fuel with
    | zero => simp at hf
    | succ fuel =>
      simp only [List.length_cons, List.length_append, List.length_nil] at hf
      simp only [List.cons_append, List.append_assoc, List.nil_append]
      obtain ⟨c, r', e, hc⟩ := members_head h ('}' :: r)
      have hi := ih fuel r (by omega)
      rw [← parseMembers_skip, e] at hi
      rw [parseValue, skip_to hw (by decide)]
      simp only
      rw [if_neg (by decide), if_neg (by decide), if_neg (by decide), if_neg (by decide), if_neg (by decide),
        if_pos (by trivial), if_neg (by omega), e]
      simp only
      rw [if_neg hc, Nat.add_sub_cancel, hi]
      rfl
  | @item n j w t w' hw _ hw' ih =>
    intro fuel r hf
    cases fuel with
    | zero => simp at hf
    | succ fuel =>
      simp only [List.length_append] at hf
      have hv := ih fuel w (w' ++ ']' :: r) (by omega) hw (fun _ => ends_blank hw' (by decide) r)
      simp only [List.append_assoc]
      rw [parseItems, hv]
      simp only
      rw [skip_to hw' (by decide)]
      simp only
      rw [if_pos (by trivial)]
  | @items n j js w t w' ts hw _ hw' _ ih ih' =>
    intro fuel r hf
    cases fuel with
    | zero => simp at hf
    | succ fuel =>
      simp only [List.length_append, List.length_cons] at hf
      have hv := ih fuel w (w' ++ ',' :: (ts ++ ']' :: r)) (by omega) hw (fun _ => ends_blank hw' (by decide) _)
      simp only [List.append_assoc, List.cons_append]
      rw [parseItems, hv]
      simp only
      rw [skip_to hw' (by decide)]
      simp only
      rw [if_neg (by decide), if_pos (by trivial), ih' fuel r (by omega)]
      rfl
  | @member n k j w q w' v t v' hw hq hw' hv _ hv' ih =>
    intro fuel r hf
    obtain ⟨u, hu, rfl⟩ := hq
    cases fuel with
    | zero => simp at hf
    | succ fuel =>
      simp only [List.length_append, List.length_cons, List.length_nil] at hf
      have hval := ih fuel v (v' ++ '}' :: r) (by omega) hv (fun _ => ends_blank hv' (by decide) r)
      simp only [List.append_assoc, List.cons_append, List.nil_append]
      rw [parseMembers, skip_to hw (by decide)]
      simp only
      rw [if_pos (by trivial), parseStr_text hu (by omega)]
      simp only
      rw [skip_to hw' (by decide)]
      simp only
      rw [if_pos (by trivial), hval]
      simp only
      rw [skip_to hv' (by decide)]
      simp only
      rw [if_pos (by trivial), String.ofList_toList]
  | @members n k j ms w q w' v t v' ts hw hq hw' hv _ hv' _ ih ih' =>
    intro fuel r hf
    obtain ⟨u, hu, rfl⟩ := hq
    cases fuel with
    | zero => simp at hf
    | succ fuel =>
      simp only [List.length_append, List.length_cons, List.length_nil] at hf
      have hval := ih fuel v (v' ++ ',' :: (ts ++ '}' :: r)) (by omega) hv (fun _ => ends_blank hv' (by decide) _)
      simp only [List.append_assoc, List.cons_append, List.nil_append]
      rw [parseMembers, skip_to hw (by decide)]
      simp only
      rw [if_pos (by trivial), parseStr_text hu (by omega)]
      simp only
      rw [skip_to hw' (by decide)]
      simp only
      rw [if_pos (by trivial), hval]
      simp only
      rw [skip_to hv' (by decide)]
      simp only
      rw [if_neg (by decide), if_pos (by trivial), ih' fuel r (by omega), String.ofList_toList]
      rfl

/-! ### Only spellings are read -/

theorem skip_cons {cs r : List Char} {c : Char} (h : skipSpace cs = c :: r) : ∃ w, JsonBlank w ∧ cs = w ++ c :: r := by
  obtain ⟨w, hw, e⟩ := skipSpace_split cs
  rw [h] at e
  exact ⟨w, hw, e⟩

theorem string_text {fuel : Nat} {cs k r : List Char} (h : parseStr fuel cs = some (k, r)) :
    ∃ u, InsideText (String.ofList k).toList u ∧ cs = u ++ '"' :: r := by
  obtain ⟨u, hu, e⟩ := parseStr_sound _ _ _ _ h
  exact ⟨u, by rw [String.toList_ofList]; exact hu, e⟩

theorem parse_sound (fuel : Nat) :
    (∀ depth cs j r, parseValue fuel depth cs = some (j, r) →
      ∃ w t, JsonBlank w ∧ cs = w ++ (t ++ r) ∧ Spells (depth - 1) (.value j) t) ∧
    (∀ depth cs js r, parseItems fuel depth cs = some (js, r) →
      ∃ t, cs = t ++ ']' :: r ∧ Spells (depth - 1) (.items js) t) ∧
    (∀ depth cs ms r, parseMembers fuel depth cs = some (ms, r) →
      ∃ t, cs = t ++ '}' :: r ∧ Spells (depth - 1) (.members ms) t) := by
  induction fuel with
  | zero =>
    refine ⟨?_, ?_, ?_⟩
    · intro depth cs j r h; simp [parseValue] at h
    · intro depth cs j r h; simp [parseItems] at h
    · intro depth cs j r h; simp [parseMembers] at h
  | succ fuel ih =>
    obtain ⟨ihv, ihi, ihm⟩ := ih
    refine ⟨?_, ?_, ?_⟩
    · intro depth cs j r h
      rw [parseValue] at h
      split at h
      · simp at h
      · rename_i c r₀ hc
        obtain ⟨w, hw, rfl⟩ := skip_cons hc
        split at h
        · rename_i e
          subst e
          obtain ⟨r₁, h1, h2⟩ := Option.map_eq_some_iff.1 h
          obtain ⟨rfl, rfl⟩ := Prod.mk.injEq .. ▸ h2
          rw [parseWord_sound h1]
          exact ⟨w, "null".toList, hw, rfl, .null⟩
        · split at h
          · rename_i e
            subst e
            obtain ⟨r₁, h1, h2⟩ := Option.map_eq_some_iff.1 h
            obtain ⟨rfl, rfl⟩ := Prod.mk.injEq .. ▸ h2
            rw [parseWord_sound h1]
            exact ⟨w, "true".toList, hw, rfl, .true⟩
          · split at h
            · rename_i e
              subst e
              obtain ⟨r₁, h1, h2⟩ := Option.map_eq_some_iff.1 h
              obtain ⟨rfl, rfl⟩ := Prod.mk.injEq .. ▸ h2
              rw [parseWord_sound h1]
              exact ⟨w, "false".toList, hw, rfl, .false⟩
            · split at h
              · rename_i e
                subst e
                obtain ⟨⟨k, r₁⟩, h1, h2⟩ := Option.map_eq_some_iff.1 h
                obtain ⟨rfl, rfl⟩ := Prod.mk.injEq .. ▸ h2
                obtain ⟨u, hu, rfl⟩ := string_text h1
                exact ⟨w, '"' :: u ++ ['"'], hw, by simp, .str ⟨u, hu, rfl⟩⟩
              · split at h
                · rename_i e
                  subst e
                  split at h
                  · simp at h
                  · rename_i hd
                    obtain ⟨d, rfl⟩ : ∃ d, depth = d + 2 := ⟨depth - 2, by omega⟩
                    split at h
                    · simp at h
                    · rename_i c' r' hc'
                      obtain ⟨w', hw', rfl⟩ := skip_cons hc'
                      split at h
                      · rename_i e
                        subst e
                        simp only [Option.some.injEq, Prod.mk.injEq] at h
                        obtain ⟨rfl, rfl⟩ := h
                        exact ⟨w, '[' :: w' ++ [']'], hw, by simp, .noItems hw'⟩
                      · obtain ⟨⟨js, r₁⟩, h1, h2⟩ := Option.map_eq_some_iff.1 h
                        obtain ⟨rfl, rfl⟩ := Prod.mk.injEq .. ▸ h2
                        have hskip : skipSpace (w' ++ c' :: r') = c' :: r' := hc'
                        rw [← hskip, parseItems_skip] at h1
                        obtain ⟨t, e, ht⟩ := ihi _ _ _ _ h1
                        exact ⟨w, '[' :: t ++ [']'], hw, by rw [e]; simp, .arr ht⟩
                · split at h
                  · rename_i e
                    subst e
                    split at h
                    · simp at h
                    · rename_i hd
                      obtain ⟨d, rfl⟩ : ∃ d, depth = d + 2 := ⟨depth - 2, by omega⟩
                      split at h
                      · simp at h
                      · rename_i c' r' hc'
                        obtain ⟨w', hw', rfl⟩ := skip_cons hc'
                        split at h
                        · rename_i e
                          subst e
                          simp only [Option.some.injEq, Prod.mk.injEq] at h
                          obtain ⟨rfl, rfl⟩ := h
                          exact ⟨w, '{' :: w' ++ ['}'], hw, by simp, .noMembers hw'⟩
                        · obtain ⟨⟨ms, r₁⟩, h1, h2⟩ := Option.map_eq_some_iff.1 h
                          obtain ⟨rfl, rfl⟩ := Prod.mk.injEq .. ▸ h2
                          have hskip : skipSpace (w' ++ c' :: r') = c' :: r' := hc'
                          rw [← hskip, parseMembers_skip] at h1
                          obtain ⟨t, e, ht⟩ := ihm _ _ _ _ h1
                          exact ⟨w, '{' :: t ++ ['}'], hw, by rw [e]; simp, .obj ht⟩
                  · obtain ⟨t, ht, e⟩ := parseNumber_sound h
                    exact ⟨w, t, hw, by rw [e], .number ht⟩
    · intro depth cs js r h
      rw [parseItems] at h
      split at h
      · simp at h
      · rename_i j r₁ h1
        obtain ⟨w, t, hw, rfl, ht⟩ := ihv _ _ _ _ h1
        split at h
        · simp at h
        · rename_i c r₂ hc
          obtain ⟨w', hw', rfl⟩ := skip_cons hc
          split at h
          · rename_i e
            subst e
            simp only [Option.some.injEq, Prod.mk.injEq] at h
            obtain ⟨rfl, rfl⟩ := h
            exact ⟨w ++ t ++ w', by simp, .item hw ht hw'⟩
          · split at h
            · rename_i e
              subst e
              obtain ⟨⟨js', r₃⟩, h2, h3⟩ := Option.map_eq_some_iff.1 h
              obtain ⟨rfl, rfl⟩ := Prod.mk.injEq .. ▸ h3
              obtain ⟨ts, rfl, hts⟩ := ihi _ _ _ _ h2
              exact ⟨w ++ t ++ w' ++ ',' :: ts, by simp, .items hw ht hw' hts⟩
            · simp at h
    · intro depth cs ms r h
      rw [parseMembers] at h
      split at h
      · simp at h
      · rename_i q r₁ hq
        obtain ⟨w, hw, rfl⟩ := skip_cons hq
        split at h
        · rename_i e
          subst e
          split at h
          · simp at h
          · rename_i k r₂ hk
            obtain ⟨u, hu, rfl⟩ := string_text hk
            split at h
            · simp at h
            · rename_i c r₃ hc
              obtain ⟨w', hw', rfl⟩ := skip_cons hc
              split at h
              · rename_i e
                subst e
                split at h
                · simp at h
                · rename_i j r₄ hj
                  obtain ⟨v, t, hv, rfl, ht⟩ := ihv _ _ _ _ hj
                  split at h
                  · simp at h
                  · rename_i c r₅ hc'
                    obtain ⟨v', hv', rfl⟩ := skip_cons hc'
                    split at h
                    · rename_i e
                      subst e
                      simp only [Option.some.injEq, Prod.mk.injEq] at h
                      obtain ⟨rfl, rfl⟩ := h
                      exact ⟨w ++ ('"' :: u ++ ['"']) ++ w' ++ ':' :: v ++ t ++ v', by simp,
                        .member hw ⟨u, hu, rfl⟩ hw' hv ht hv'⟩
                    · split at h
                      · rename_i e
                        subst e
                        obtain ⟨⟨ms', r₆⟩, h2, h3⟩ := Option.map_eq_some_iff.1 h
                        obtain ⟨rfl, rfl⟩ := Prod.mk.injEq .. ▸ h3
                        obtain ⟨ts, rfl, hts⟩ := ihm _ _ _ _ h2
                        exact ⟨w ++ ('"' :: u ++ ['"']) ++ w' ++ ':' :: v ++ t ++ v' ++ ',' :: ts, by simp,
                          .members hw ⟨u, hu, rfl⟩ hw' hv ht hv' hts⟩
                      · simp at h
              · simp at h
        · simp at h

end Qlc
