import Verif.Spec.GraphqlText
import Verif.Lemmas.JsonValue
/-
The tokens that the model finds are the tokens of the grammar.
-/
set_option autoImplicit false

namespace Qlc
open Spec

/-! ### Gaps -/

theorem ignored_iff (c : Char) : isIgnored c = true ↔ c ∈ [' ', '\t', '\n', '\r', ',', Char.ofNat 0xFEFF] := by
  unfold isIgnored
  simp only [Bool.or_eq_true, decide_eq_true_eq, List.mem_cons, List.not_mem_nil, or_false]
  have e : Char.ofNat 0xFEFF = '﻿' := by decide
  rw [e]
  tauto

/-- A token may begin with the character. -/
def Starts (c : Char) : Prop := isIgnored c = false ∧ c ≠ '#'

/-- The text is empty or a token may begin with it. -/
def StartsToken (r : List Char) : Prop := ∀ c r', r = c :: r' → Starts c

theorem skip_sound : ∀ (cs : List Char),
    (∃ g, cs = g ++ skipIgnored false cs ∧ Gap g (skipIgnored false cs) ∧ StartsToken (skipIgnored false cs)) ∧
    ∃ body g, cs = body ++ (g ++ skipIgnored true cs) ∧ (∀ c ∈ body, ¬ LineEnd c) ∧
      (∀ c r, g ++ skipIgnored true cs = c :: r → LineEnd c) ∧ Gap g (skipIgnored true cs) ∧
      StartsToken (skipIgnored true cs)
  | [] => ⟨⟨[], by simp [skipIgnored], .nil, by intro c r h; simp [skipIgnored] at h⟩,
      [], [], by simp [skipIgnored], by simp, by simp [skipIgnored], .nil, by intro c r h; simp [skipIgnored] at h⟩
  | c :: r => by
    obtain ⟨⟨g, h1, h2, h3⟩, body, g', k1, k2, k3, k4, k5⟩ := skip_sound r
    constructor
    · by_cases hc : isIgnored c = true
      · have e : skipIgnored false (c :: r) = skipIgnored false r := by rw [skipIgnored, if_pos hc]
        rw [e]
        refine ⟨c :: g, ?_, .blank ((ignored_iff c).1 hc) h2, h3⟩
        rw [List.cons_append, ← h1]
      · by_cases hh : c = '#'
        · have e : skipIgnored false (c :: r) = skipIgnored true r := by rw [skipIgnored, if_neg hc, if_pos hh]
          rw [e]
          refine ⟨'#' :: body ++ g', ?_, .comment k2 k3 k4, k5⟩
          rw [hh, List.cons_append, List.cons_append, List.append_assoc, ← k1]
        · have e : skipIgnored false (c :: r) = c :: r := by rw [skipIgnored, if_neg hc, if_neg hh]
          rw [e]
          refine ⟨[], rfl, .nil, ?_⟩
          intro c' r' h
          cases h
          exact ⟨by simpa using hc, hh⟩
    · by_cases hc : c = '\n' ∨ c = '\r'
      · have e : skipIgnored true (c :: r) = skipIgnored false r := by rw [skipIgnored, if_pos hc]
        rw [e]
        refine ⟨[], c :: g, ?_, by simp, ?_, .blank ?_ h2, h3⟩
        · rw [List.nil_append, List.cons_append, ← h1]
        · intro c' r' h
          rw [List.cons_append] at h
          cases h
          exact hc
        · rcases hc with rfl | rfl <;> simp
      · have e : skipIgnored true (c :: r) = skipIgnored true r := by rw [skipIgnored, if_neg hc]
        rw [e]
        refine ⟨c :: body, g', ?_, ?_, k3, k4, k5⟩
        · rw [List.cons_append, ← k1]
        · intro x hx
          rcases List.mem_cons.1 hx with rfl | hx
          · exact hc
          · exact k2 x hx

theorem skip_comment {body r : List Char} (hb : ∀ c ∈ body, ¬ LineEnd c) (hr : ∀ c r', r = c :: r' → LineEnd c) :
    skipIgnored true (body ++ r) = skipIgnored false r := by
  induction body with
  | nil =>
    cases r with
    | nil => rfl
    | cons c r =>
      have hc : c = '\n' ∨ c = '\r' := hr c r rfl
      rw [List.nil_append, skipIgnored, if_pos hc, skipIgnored, if_pos]
      rcases hc with rfl | rfl <;> decide
  | cons c body ih =>
    rw [List.cons_append, skipIgnored, if_neg (show ¬ (c = '\n' ∨ c = '\r') from hb c (by simp))]
    exact ih (fun x hx => hb x (by simp [hx]))

theorem skip_complete {g rest : List Char} (h : Gap g rest) (hr : StartsToken rest) :
    skipIgnored false (g ++ rest) = rest := by
  induction h with
  | nil =>
    rename_i rest
    cases rest with
    | nil => rfl
    | cons c r =>
      obtain ⟨h1, h2⟩ := hr c r rfl
      rw [List.nil_append, skipIgnored, if_neg (by simp [h1]), if_neg h2]
  | blank hc _ ih =>
    rw [List.cons_append, skipIgnored, if_pos ((ignored_iff _).2 hc)]
    exact ih hr
  | comment hb he _ ih =>
    rw [List.cons_append, List.cons_append, skipIgnored, if_neg (by decide), if_pos rfl, List.append_assoc,
      skip_comment hb he]
    exact ih hr

/-! ### Characters -/

theorem char_small {c : Char} {b : Char} (h : c ≤ b) (hb : b.toNat < 128) : c.toNat < 128 := by
  rw [Char.le_def, UInt32.le_iff_toNat_le] at h
  exact Nat.lt_of_le_of_lt h hb

theorem nameStart_iff (c : Char) : isNameStart c = true ↔ NameStart c := by
  unfold isNameStart NameStart
  rw [decide_eq_true_eq]
  constructor
  · intro h
    have hle : c.toNat < 128 := by
      rcases h with h | h | h
      · exact char_small h.2 (by decide)
      · exact char_small h.2 (by decide)
      · subst h; decide
    have all : ∀ a : Fin 128, (('a' ≤ Char.ofNat a ∧ Char.ofNat a ≤ 'z') ∨ ('A' ≤ Char.ofNat a ∧ Char.ofNat a ≤ 'Z') ∨
        Char.ofNat a = '_') → Char.ofNat a ∈ "abcdefghijklmnopqrstuvwxyzABCDEFGHIJKLMNOPQRSTUVWXYZ_".toList := by
      decide +kernel
    have h2 := all ⟨c.toNat, hle⟩
    simp only [Char.ofNat_toNat] at h2
    exact h2 h
  · have all : ∀ c ∈ "abcdefghijklmnopqrstuvwxyzABCDEFGHIJKLMNOPQRSTUVWXYZ_".toList,
        (('a' ≤ c ∧ c ≤ 'z') ∨ ('A' ≤ c ∧ c ≤ 'Z') ∨ c = '_') := by decide +kernel
    exact all c

theorem nameChar_iff (c : Char) : isNameChar c = true ↔ NameStart c ∨ Digit c := by
  unfold isNameChar
  rw [Bool.or_eq_true, nameStart_iff, jsonDigit_iff]

theorem takeName_sound (cs : List Char) : (∀ c ∈ (takeName cs).1, NameStart c ∨ Digit c) ∧
    cs = (takeName cs).1 ++ (takeName cs).2 ∧ ∀ c r, (takeName cs).2 = c :: r → ¬ NameStart c ∧ ¬ Digit c := by
  induction cs with
  | nil => simp [takeName]
  | cons c r ih =>
    unfold takeName
    split
    · rename_i hc
      refine ⟨?_, by rw [List.cons_append, ← ih.2.1], ih.2.2⟩
      intro x hx
      rcases List.mem_cons.1 hx with rfl | hx
      · exact (nameChar_iff _).1 hc
      · exact ih.1 x hx
    · rename_i hc
      refine ⟨by simp, rfl, ?_⟩
      intro x r' e
      cases e
      rw [nameChar_iff] at hc
      tauto

theorem takeName_complete {cs r : List Char} (h : ∀ c ∈ cs, NameStart c ∨ Digit c)
    (hr : ∀ c r', r = c :: r' → ¬ NameStart c ∧ ¬ Digit c) : takeName (cs ++ r) = (cs, r) := by
  induction cs with
  | nil =>
    cases r with
    | nil => rfl
    | cons c r =>
      have := hr c r rfl
      rw [List.nil_append, takeName, if_neg (by rw [nameChar_iff]; tauto)]
  | cons c cs ih =>
    rw [List.cons_append, takeName, if_pos ((nameChar_iff c).2 (h c (by simp))),
      ih (fun x hx => h x (by simp [hx]))]

/-! ### Strings -/

theorem lexString_complete {b : List Char} (h : QuotedBody b) (r : List Char) :
    lexString 0 (b ++ '"' :: r) = some (b, r) := by
  induction h with
  | nil => rw [List.nil_append, lexString, if_pos rfl]
  | plain h1 h2 h3 _ ih =>
    unfold LineEnd at h3
    rw [List.cons_append, lexString, if_neg h1, if_neg h2, if_neg h3, ih]
    rfl
  | short he _ ih =>
    rw [List.cons_append, List.cons_append, lexString, if_neg (by decide), if_pos rfl, lexString, if_neg, if_pos, ih]
    · rfl
    · rw [(simpleEscape_iff _ _).2 he]; rfl
    · rintro rfl
      revert he
      unfold shortEscapes
      simp
  | code hh _ ih =>
    obtain ⟨a, b, c, d, x, y, z, u, ha, hb, hc, hd, rfl, rfl⟩ := hh
    simp only [List.cons_append, List.nil_append]
    rw [lexString, if_neg (by decide), if_pos rfl, lexString, if_pos rfl,
      lexString, if_pos (by rw [(hexValue_iff _ _).2 ha]; rfl), if_neg (by decide),
      lexString, if_pos (by rw [(hexValue_iff _ _).2 hb]; rfl), if_neg (by decide),
      lexString, if_pos (by rw [(hexValue_iff _ _).2 hc]; rfl), if_neg (by decide),
      lexString, if_pos (by rw [(hexValue_iff _ _).2 hd]; rfl), if_pos rfl, ih]
    rfl

/-- What is left of an escape. -/
def EscapeRest : Nat → List Char → Prop
  | 0, b => QuotedBody b
  | 1, b => (∃ c e b', (c, e) ∈ shortEscapes ∧ QuotedBody b' ∧ b = e :: b') ∨
      ∃ n h b', Hex4 n h ∧ QuotedBody b' ∧ b = 'u' :: (h ++ b')
  | k + 2, b => ∃ h b', h.length = k + 1 ∧ (∀ c ∈ h, ∃ n, HexDigit n c) ∧ QuotedBody b' ∧ b = h ++ b'

theorem lexString_sound : ∀ (st : Nat) (cs b r : List Char), st ≤ 5 → lexString st cs = some (b, r) →
    EscapeRest st b ∧ cs = b ++ '"' :: r
  | st, [], b, r, _, h => by
    unfold lexString at h
    simp at h
  | 0, c :: cs, b, r, hst, h => by
    rw [lexString] at h
    split at h
    · rename_i hc
      cases h
      subst hc
      exact ⟨.nil, rfl⟩
    · rename_i h1
      split at h
      · rename_i h2
        rw [Option.map_eq_some_iff] at h
        obtain ⟨⟨b', r'⟩, h, e⟩ := h
        cases e
        obtain ⟨k1, k2⟩ := lexString_sound 1 cs b' r' (by omega) h
        subst h2
        refine ⟨?_, by rw [k2]; rfl⟩
        rcases k1 with ⟨x, e, b'', hm, hq, rfl⟩ | ⟨n, hh, b'', hm, hq, rfl⟩
        · exact .short hm hq
        · exact .code hm hq
      · rename_i h2
        split at h
        · cases h
        · rename_i h3
          rw [Option.map_eq_some_iff] at h
          obtain ⟨⟨b', r'⟩, h, e⟩ := h
          cases e
          obtain ⟨k1, k2⟩ := lexString_sound 0 cs b' r' (by omega) h
          exact ⟨.plain h1 h2 h3 k1, by rw [k2]; rfl⟩
  | 1, c :: cs, b, r, hst, h => by
    rw [lexString] at h
    split at h
    · rename_i hc
      rw [Option.map_eq_some_iff] at h
      obtain ⟨⟨b', r'⟩, h, e⟩ := h
      cases e
      obtain ⟨⟨hh, b'', hl, hd, hq, rfl⟩, k2⟩ := lexString_sound 5 cs b' r' (by omega) h
      subst hc
      refine ⟨.inr ?_, by rw [k2]; rfl⟩
      match hh, hl, hd with
      | [x, y, z, u], _, hd =>
        obtain ⟨a, ha⟩ := hd x (by simp)
        obtain ⟨b, hb⟩ := hd y (by simp)
        obtain ⟨c, hc⟩ := hd z (by simp)
        obtain ⟨d, hdd⟩ := hd u (by simp)
        exact ⟨_, [x, y, z, u], b'', ⟨a, b, c, d, x, y, z, u, ha, hb, hc, hdd, rfl, rfl⟩, hq, rfl⟩
    · split at h
      · rename_i hs
        rw [Option.map_eq_some_iff] at h
        obtain ⟨⟨b', r'⟩, h, e⟩ := h
        cases e
        obtain ⟨k1, k2⟩ := lexString_sound 0 cs b' r' (by omega) h
        obtain ⟨x, hx⟩ := Option.isSome_iff_exists.1 hs
        exact ⟨.inl ⟨x, c, b', (simpleEscape_iff _ _).1 hx, k1, rfl⟩, by rw [k2]; rfl⟩
      · cases h
  | k + 2, c :: cs, b, r, hst, h => by
    rw [lexString] at h
    split at h
    · rename_i hs
      obtain ⟨n, hn⟩ := Option.isSome_iff_exists.1 hs
      have hn := (hexValue_iff _ _).1 hn
      rw [Option.map_eq_some_iff] at h
      obtain ⟨⟨b', r'⟩, h, e⟩ := h
      cases e
      by_cases hk : k = 0
      · subst hk
        rw [if_pos rfl] at h
        obtain ⟨k1, k2⟩ := lexString_sound 0 cs b' r' (by omega) h
        exact ⟨⟨[c], b', rfl, by simpa using ⟨n, hn⟩, k1, rfl⟩, by rw [k2]; rfl⟩
      · rw [if_neg hk] at h
        obtain ⟨k', rfl⟩ : ∃ k', k = k' + 1 := ⟨k - 1, by omega⟩
        obtain ⟨⟨hh, b'', hl, hd, hq, rfl⟩, k2⟩ := lexString_sound (k' + 2) cs b' r' (by omega) h
        refine ⟨⟨c :: hh, b'', by simp [hl], ?_, hq, rfl⟩, by rw [k2]; rfl⟩
        intro x hx
        rcases List.mem_cons.1 hx with rfl | hx
        · exact ⟨n, hn⟩
        · exact hd x hx
    · cases h

theorem parseWord_none {w cs : List Char} : parseWord w cs = none ↔ ¬ w <+: cs := by
  constructor
  · rintro h ⟨r, rfl⟩
    rw [parseWord_complete] at h
    cases h
  · intro h
    cases e : parseWord w cs with
    | none => rfl
    | some r => exact absurd ⟨r, (parseWord_sound e).symm⟩ h

theorem prefix_short {w a r : List Char} (h : w.length ≤ a.length) : w <+: a ++ r ↔ w <+: a := by
  constructor
  · intro h'
    exact List.prefix_of_prefix_length_le h' (List.prefix_append a r) h
  · rintro ⟨x, rfl⟩
    exact ⟨x ++ r, by simp⟩

theorem lexBlock_copy (w : List Char) (r : List Char) :
    lexBlock w.length (w ++ r) = (lexBlock 0 r).map (fun x => (w ++ x.1, x.2)) := by
  induction w with
  | nil => cases h : lexBlock 0 r <;> simp [h]
  | cons c w ih =>
    rw [List.cons_append, List.length_cons, lexBlock, ih, Option.map_map]
    rfl

theorem lexBlock_complete {b : List Char} (h : BlockBody b) (r : List Char) :
    lexBlock 0 (b ++ (tripleQuote ++ r)) = some (b, r) := by
  induction h with
  | nil =>
    show lexBlock 0 ('"' :: ('"' :: '"' :: r)) = _
    rw [lexBlock]
    have : parseWord tripleQuote ('"' :: ('"' :: '"' :: r)) = some r := parseWord_complete tripleQuote r
    rw [this]
  | plain h1 h2 _ ih =>
    rename_i c b _
    rw [List.cons_append, lexBlock]
    have e : ∀ w : List Char, w.length ≤ 4 → (w <+: c :: (b ++ (tripleQuote ++ r)) ↔ w <+: c :: b ++ tripleQuote) := by
      intro w hw
      have := prefix_short (w := w) (a := c :: b ++ tripleQuote) (r := r) (by simp [tripleQuote]; omega)
      rw [← this]
      simp
    rw [parseWord_none.2 (fun hp => h1 ((e tripleQuote (by decide)).1 hp))]
    have h3 : parseWord ('\\' :: tripleQuote) (c :: (b ++ (tripleQuote ++ r))) = none :=
      parseWord_none.2 (fun hp => h2 ((e ('\\' :: tripleQuote) (by decide)).1 hp))
    simp only [h3]
    rw [if_neg (by simp), ih]
    rfl
  | escaped _ ih =>
    rename_i b _
    show lexBlock 0 ('\\' :: ('"' :: '"' :: '"' :: (b ++ (tripleQuote ++ r)))) = _
    rw [lexBlock]
    have h1 : parseWord tripleQuote ('\\' :: ('"' :: '"' :: '"' :: (b ++ (tripleQuote ++ r)))) = none := by
      unfold tripleQuote
      rw [parseWord, if_neg (by decide)]
    have h2 : parseWord ('\\' :: tripleQuote) ('\\' :: ('"' :: '"' :: '"' :: (b ++ (tripleQuote ++ r)))) =
        some (b ++ (tripleQuote ++ r)) := parseWord_complete ('\\' :: tripleQuote) _
    rw [h1]
    simp only [h2]
    rw [if_pos (by rfl)]
    have := lexBlock_copy ['"', '"', '"'] (b ++ (tripleQuote ++ r))
    simp only [List.length_cons, List.length_nil, List.cons_append, List.nil_append] at this
    rw [this, ih]
    rfl

theorem lexBlock_sound : ∀ (k : Nat) (cs b r : List Char), lexBlock k cs = some (b, r) →
    ∃ w b', w.length = k ∧ b = w ++ b' ∧ BlockBody b' ∧ cs = b ++ (tripleQuote ++ r)
  | k, [], b, r, h => by
    unfold lexBlock at h
    simp at h
  | k + 1, c :: cs, b, r, h => by
    rw [lexBlock, Option.map_eq_some_iff] at h
    obtain ⟨⟨b', r'⟩, h, e⟩ := h
    cases e
    obtain ⟨w, b'', h1, rfl, h3, h4⟩ := lexBlock_sound k cs b' r' h
    exact ⟨c :: w, b'', by simp [h1], rfl, h3, by rw [h4]; simp⟩
  | 0, c :: cs, b, r, h => by
    rw [lexBlock] at h
    split at h
    · rename_i r' hp
      cases h
      exact ⟨[], [], rfl, rfl, .nil, by rw [List.nil_append]; exact parseWord_sound hp⟩
    · rename_i hp
      rw [Option.map_eq_some_iff] at h
      obtain ⟨⟨b', r'⟩, h, e⟩ := h
      cases e
      split at h
      · rename_i hs
        obtain ⟨r₂, hr₂⟩ := Option.isSome_iff_exists.1 hs
        have := parseWord_sound hr₂
        obtain ⟨w, b'', h1, rfl, h3, h4⟩ := lexBlock_sound 3 cs b' r' h
        simp only [tripleQuote, List.cons_append, List.nil_append, List.cons.injEq] at this
        obtain ⟨rfl, rfl⟩ := this
        match w, h1 with
        | [x, y, z], _ =>
          simp only [List.cons_append, List.nil_append, List.cons.injEq] at h4
          obtain ⟨rfl, rfl, rfl, h4⟩ := h4
          exact ⟨[], _, rfl, rfl, .escaped h3, by rw [h4]; simp⟩
      · rename_i hs
        obtain ⟨w, b'', h1, rfl, h3, h4⟩ := lexBlock_sound 0 cs b' r' h
        obtain rfl : w = [] := List.length_eq_zero_iff.1 h1
        rw [List.nil_append] at h4 ⊢
        refine ⟨[], c :: b'', rfl, rfl, .plain ?_ ?_ h3, by rw [h4]; simp⟩
        · rw [parseWord_none] at hp
          rintro ⟨x, hx⟩
          refine hp ⟨x ++ r', ?_⟩
          have hx : tripleQuote ++ x = c :: b'' ++ tripleQuote := hx
          rw [← List.append_assoc, hx, h4]
          simp
        · have hs : parseWord ('\\' :: tripleQuote) (c :: cs) = none := by
            cases e : parseWord ('\\' :: tripleQuote) (c :: cs) with
            | none => rfl
            | some _ => rw [e] at hs; simp at hs
          rw [parseWord_none] at hs
          rintro ⟨x, hx⟩
          refine hs ⟨x ++ r', ?_⟩
          have hx : ('\\' :: tripleQuote) ++ x = c :: b'' ++ tripleQuote := hx
          rw [← List.append_assoc, hx, h4]
          simp

/-! ### Tokens -/

theorem punct_iff (c : Char) : isPunct c = true ↔ c ∈ "!$&():=@[]{|}".toList := by
  have e : "!$&():=@[]{|}".toList = ['!', '$', '&', '(', ')', ':', '=', '@', '[', ']', '{', '|', '}'] := by decide +kernel
  unfold isPunct
  rw [e, decide_eq_true_eq]

theorem punct_chars : ∀ c ∈ "!$&():=@[]{|}".toList, isIgnored c = false ∧ c ≠ '#' := by decide +kernel

theorem nameStart_chars : ∀ c ∈ "abcdefghijklmnopqrstuvwxyzABCDEFGHIJKLMNOPQRSTUVWXYZ_".toList,
    isIgnored c = false ∧ c ≠ '#' ∧ isPunct c = false ∧ c ≠ '.' := by decide +kernel

theorem digit_chars : ∀ c ∈ "0123456789".toList,
    isIgnored c = false ∧ c ≠ '#' ∧ isPunct c = false ∧ c ≠ '.' ∧ isNameStart c = false := by decide +kernel

theorem numeral_head {j : Json} {t : List Char} (h : NumberText j t) : ∃ c t', t = c :: t' ∧ (c = '-' ∨ Digit c) := by
  cases h with
  | nat hd =>
    obtain ⟨c, r', rfl, hc⟩ := integer_head hd
    exact ⟨c, r', rfl, .inr hc⟩
  | num hs hd _ _ _ =>
    obtain ⟨c, r', rfl, hc⟩ := integer_head hd
    rcases hs with rfl | rfl
    · exact ⟨c, _, by rw [List.nil_append, List.cons_append, List.cons_append], .inr hc⟩
    · exact ⟨'-', _, by rw [List.cons_append, List.cons_append, List.cons_append], .inl rfl⟩

theorem token_head {t : GTok} {w : List Char} (h : TokenText t w) : ∃ c w', w = c :: w' ∧ Starts c := by
  cases h with
  | punct hc => exact ⟨_, _, rfl, punct_chars _ hc⟩
  | dots => exact ⟨'.', ['.', '.'], by decide +kernel, by unfold Starts; decide +kernel⟩
  | name hc _ => exact ⟨_, _, rfl, (nameStart_chars _ hc).1, (nameStart_chars _ hc).2.1⟩
  | number hn =>
    obtain ⟨c, t', rfl, hc⟩ := numeral_head hn
    refine ⟨c, t', rfl, ?_⟩
    rcases hc with rfl | hc
    · unfold Starts; decide +kernel
    · exact ⟨(digit_chars _ hc).1, (digit_chars _ hc).2.1⟩
  | string _ => exact ⟨'"', _, rfl, by unfold Starts; decide +kernel⟩
  | block _ => exact ⟨'"', _, rfl, by unfold Starts; decide +kernel⟩

theorem endsNumber_iff (r : List Char) : endsNumber r = true ↔
    ∀ c r', r = c :: r' → ¬ NameStart c ∧ ¬ Digit c ∧ c ≠ '.' := by
  cases r with
  | nil => simp [endsNumber]
  | cons c r =>
    rw [endsNumber, Bool.and_eq_true, decide_eq_true_eq, Bool.not_eq_true', ← Bool.not_eq_true, nameChar_iff]
    constructor
    · rintro ⟨h1, h2⟩ c' r' e
      cases e
      tauto
    · intro h
      have := h c r rfl
      tauto

theorem lexNumber_complete {j : Json} {t : List Char} (h : NumberText j t) {r : List Char}
    (hr : ∀ c r', r = c :: r' → ¬ NameStart c ∧ ¬ Digit c ∧ c ≠ '.') :
    lexNumber (t ++ r) = some (.number (String.ofList t), r) := by
  unfold lexNumber
  rw [parseNumber_complete h]
  · simp only
    rw [if_pos ((endsNumber_iff r).2 hr)]
    simp
  · intro c r' e
    obtain ⟨h1, h2, h3⟩ := hr c r' e
    refine ⟨?_, h3, ?_, ?_⟩
    · rw [← Bool.not_eq_true, jsonDigit_iff]; exact h2
    · rintro rfl; exact h1 (by unfold NameStart; decide +kernel)
    · rintro rfl; exact h1 (by unfold NameStart; decide +kernel)

theorem lexNumber_sound {cs r : List Char} {t : GTok} (h : lexNumber cs = some (t, r)) :
    ∃ j w, NumberText j w ∧ t = .number (String.ofList w) ∧ cs = w ++ r ∧
      ∀ c r', r = c :: r' → ¬ NameStart c ∧ ¬ Digit c ∧ c ≠ '.' := by
  unfold lexNumber at h
  split at h
  · cases h
  · rename_i j r' hp
    obtain ⟨w, hw, rfl⟩ := parseNumber_sound hp
    split at h
    · rename_i he
      cases h
      exact ⟨j, w, hw, by simp, rfl, (endsNumber_iff _).1 he⟩
    · cases h

theorem quoted_two (c : Char) (r : List Char) : parseWord ['"', '"'] (c :: r) = none ↔ ¬ ∃ r', c = '"' ∧ r = '"' :: r' := by
  rw [parseWord_none]
  constructor
  · rintro h ⟨r', rfl, rfl⟩
    exact h ⟨r', rfl⟩
  · rintro h ⟨r', e⟩
    simp only [List.cons_append, List.nil_append, List.cons.injEq] at e
    exact h ⟨r', e.1.symm, e.2.symm⟩

theorem lexToken_complete {t : GTok} {w : List Char} (h : TokenText t w) {r : List Char} (hr : NotContinued t r) :
    lexToken (w ++ r) = some (t, r) := by
  cases h with
  | punct hc => rw [List.cons_append, List.nil_append, lexToken, if_pos ((punct_iff _).2 hc)]
  | dots =>
    show lexToken ('.' :: ('.' :: '.' :: r)) = _
    rw [lexToken, if_neg (by decide), if_pos rfl]
    have : parseWord ['.', '.'] ('.' :: '.' :: r) = some r := parseWord_complete ['.', '.'] r
    rw [this]
    rfl
  | name hc hcs =>
    have := nameStart_chars _ hc
    rw [List.cons_append, lexToken, if_neg (by simp [this.2.2.1]), if_neg this.2.2.2, if_pos ((nameStart_iff _).2 hc),
      takeName_complete hcs hr]
  | number hn =>
    obtain ⟨c, t', rfl, hc⟩ := numeral_head hn
    have h1 : isPunct c = false ∧ c ≠ '.' ∧ isNameStart c = false := by
      rcases hc with rfl | hc
      · decide +kernel
      · have := digit_chars _ hc
        exact ⟨this.2.2.1, this.2.2.2.1, this.2.2.2.2⟩
    rw [List.cons_append, lexToken, if_neg (by simp [h1.1]), if_neg h1.2.1, if_neg (by simp [h1.2.2]), if_pos,
      ← List.cons_append, lexNumber_complete hn hr]
    rcases hc with rfl | hc
    · exact .inl rfl
    · exact .inr ((jsonDigit_iff _).2 hc)
  | string hb =>
    rename_i b
    rw [List.cons_append, List.cons_append, lexToken, if_neg (by decide), if_neg (by decide), if_neg (by decide),
      if_neg (by decide), if_pos rfl, lexQuoted]
    have h2 : parseWord ['"', '"'] (b ++ ['"'] ++ r) = none := by
      cases b with
      | nil =>
        rw [List.nil_append, List.cons_append, List.nil_append, quoted_two]
        rintro ⟨r', _, e⟩
        exact hr (by decide +kernel) r' e
      | cons c b =>
        rw [List.cons_append, List.cons_append, quoted_two]
        rintro ⟨r', rfl, e⟩
        cases hb with
        | plain h1 _ _ _ => exact h1 rfl
    rw [h2]
    simp only
    rw [List.append_assoc]
    have := lexString_complete hb r
    rw [List.cons_append, List.nil_append, this]
    rfl
  | block hb =>
    rename_i b
    show lexToken ('"' :: ('"' :: '"' :: (b ++ "\"\"\"".toList ++ r))) = _
    rw [lexToken, if_neg (by decide), if_neg (by decide), if_neg (by decide),
      if_neg (by decide), if_pos rfl, lexQuoted]
    have h2 : parseWord ['"', '"'] ('"' :: '"' :: (b ++ "\"\"\"".toList ++ r)) = some (b ++ "\"\"\"".toList ++ r) :=
      parseWord_complete ['"', '"'] _
    rw [h2]
    simp only
    have := lexBlock_complete hb r
    rw [List.append_assoc]
    rw [show "\"\"\"".toList = tripleQuote by decide +kernel, this]
    rfl

theorem lexToken_sound {cs r : List Char} {t : GTok} (h : lexToken cs = some (t, r)) :
    ∃ w, TokenText t w ∧ NotContinued t r ∧ cs = w ++ r := by
  cases cs with
  | nil => simp [lexToken] at h
  | cons c cs =>
    rw [lexToken] at h
    split at h
    · rename_i hc
      cases h
      exact ⟨[c], .punct ((punct_iff _).1 hc), trivial, rfl⟩
    · split at h
      · rename_i hc
        rw [Option.map_eq_some_iff] at h
        obtain ⟨r', h, e⟩ := h
        cases e
        have := parseWord_sound h
        subst hc this
        exact ⟨_, .dots, trivial, rfl⟩
      · split at h
        · rename_i hc
          cases h
          obtain ⟨h1, h2, h3⟩ := takeName_sound cs
          exact ⟨_, .name ((nameStart_iff _).1 hc) h1, h3, by rw [List.cons_append, ← h2]⟩
        · split at h
          · obtain ⟨j, w, h1, rfl, h3, h4⟩ := lexNumber_sound h
            exact ⟨w, .number h1, h4, h3⟩
          · split at h
            · rename_i hq
              subst hq
              unfold lexQuoted at h
              split at h
              · rename_i r' hp
                have := parseWord_sound hp
                subst this
                rw [Option.map_eq_some_iff] at h
                obtain ⟨⟨b, r''⟩, h, e⟩ := h
                cases e
                obtain ⟨w, b', h1, rfl, h3, rfl⟩ := lexBlock_sound 0 _ _ _ h
                obtain rfl : w = [] := List.length_eq_zero_iff.1 h1
                refine ⟨_, .block (b := b') h3, ?_, ?_⟩
                · intro e
                  exfalso
                  have := congrArg (fun s => s.toList.length) e
                  simp [tripleQuote] at this
                · rw [show "\"\"\"".toList = tripleQuote by decide +kernel]
                  simp [tripleQuote]
              · rename_i hp
                rw [Option.map_eq_some_iff] at h
                obtain ⟨⟨b, r''⟩, h, e⟩ := h
                cases e
                obtain ⟨h1, rfl⟩ := lexString_sound 0 _ _ _ (by omega) h
                refine ⟨_, .string h1, ?_, by simp⟩
                intro e r₂ e₂
                subst e₂
                have hb : b = [] := by
                  have := congrArg (fun s => s.toList.length) e
                  simp at this
                  exact this
                subst hb
                rw [List.nil_append, quoted_two] at hp
                exact hp ⟨_, rfl, rfl⟩
            · cases h

/-! ### Texts -/

theorem lexAll_complete {place : List Char → Pos} {cs : List Char} {ts : Toks} (h : TokensOf place cs ts) :
    ∀ n, cs.length < n → lexAll place n cs = some ts := by
  induction h with
  | done hg =>
    intro n hn
    obtain ⟨n, rfl⟩ : ∃ m, n = m + 1 := ⟨n - 1, by omega⟩
    have := skip_complete hg (by intro c r e; cases e)
    rw [List.append_nil] at this
    rw [lexAll, this]
  | more hg ht hn _ ih =>
    rename_i g w rest t ts _
    intro n hlen
    obtain ⟨n, rfl⟩ : ∃ m, n = m + 1 := ⟨n - 1, by omega⟩
    obtain ⟨c, w', rfl, hc⟩ := token_head ht
    have := skip_complete hg (by intro c' r e; cases e; exact hc)
    have hl := lexToken_complete ht hn
    rw [List.cons_append] at this hl
    rw [lexAll]
    rw [List.cons_append, this]
    simp only
    rw [hl]
    simp only
    rw [ih n (by simp at hlen; omega)]
    rfl

theorem lexAll_sound {place : List Char → Pos} : ∀ (n : Nat) {cs : List Char} {ts : Toks},
    lexAll place n cs = some ts → TokensOf place cs ts
  | 0, cs, ts, h => by cases h
  | n + 1, cs, ts, h => by
    rw [lexAll] at h
    obtain ⟨⟨g, h1, h2, h3⟩, _⟩ := skip_sound cs
    split at h
    · rename_i e
      cases h
      rw [e] at h1 h2
      rw [List.append_nil] at h1
      rw [h1]
      exact .done h2
    · rename_i c r e
      rw [e] at h1 h2
      split at h
      · cases h
      · rename_i t r' ht
        rw [Option.map_eq_some_iff] at h
        obtain ⟨ts', h, e'⟩ := h
        cases e'
        obtain ⟨w, k1, k2, k3⟩ := lexToken_sound ht
        rw [k3] at h1 h2
        rw [h1, k3]
        exact .more h2 k1 k2 (lexAll_sound n h)

theorem lexAll_iff {place : List Char → Pos} {cs : List Char} {ts : Toks} :
    lexAll place (cs.length + 1) cs = some ts ↔ TokensOf place cs ts :=
  ⟨lexAll_sound _, fun h => lexAll_complete h _ (by omega)⟩

end Qlc
