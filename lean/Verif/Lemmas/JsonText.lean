import Verif.Model.JsonText
import Verif.Spec.JsonText
/-
Facts about reading JSON texts.
-/
set_option autoImplicit false

namespace Qlc
open Spec

/-! ### White space -/

theorem isJsonSpace_iff (c : Char) : isJsonSpace c = true ↔ c = ' ' ∨ c = '\n' ∨ c = '\t' ∨ c = '\r' := by
  unfold isJsonSpace
  simp [or_assoc]

theorem skipSpace_blank {w : List Char} (hw : JsonBlank w) (r : List Char) : skipSpace (w ++ r) = skipSpace r := by
  induction w with
  | nil => rfl
  | cons c w ih =>
    have hc := (isJsonSpace_iff c).2 (hw c (List.mem_cons_self ..))
    rw [List.cons_append, skipSpace, if_pos hc]
    exact ih (fun x hx => hw x (List.mem_cons_of_mem _ hx))

theorem skipSpace_cons {c : Char} (hc : isJsonSpace c = false) (r : List Char) : skipSpace (c :: r) = c :: r := by
  rw [skipSpace, if_neg (by simp [hc])]

theorem skipSpace_split (cs : List Char) : ∃ w, JsonBlank w ∧ cs = w ++ skipSpace cs := by
  induction cs with
  | nil => exact ⟨[], by simp [JsonBlank], rfl⟩
  | cons c r ih =>
    unfold skipSpace
    split
    · rename_i hc
      obtain ⟨w, hw, e⟩ := ih
      refine ⟨c :: w, ?_, by rw [List.cons_append, ← e]⟩
      intro x hx
      rcases List.mem_cons.1 hx with rfl | hx
      · exact (isJsonSpace_iff _).1 hc
      · exact hw x hx
    · exact ⟨[], by simp [JsonBlank], rfl⟩

theorem skipSpace_idem (cs : List Char) : skipSpace (skipSpace cs) = skipSpace cs := by
  induction cs with
  | nil => rfl
  | cons c r ih =>
    cases hc : isJsonSpace c with
    | true => rw [skipSpace, if_pos hc]; exact ih
    | false => rw [skipSpace_cons hc, skipSpace_cons hc]

theorem skipSpace_nil_iff (cs : List Char) : skipSpace cs = [] ↔ JsonBlank cs := by
  constructor
  · intro h
    obtain ⟨w, hw, e⟩ := skipSpace_split cs
    rw [h, List.append_nil] at e
    rw [e]
    exact hw
  · intro h
    have := skipSpace_blank h []
    rw [List.append_nil] at this
    exact this

/-! ### Hexadecimal digits -/

/-- A check for one character. -/
def hexOk (c : Char) : Bool :=
  match hexValue c with
  | none => true
  | some m => decide ("0123456789abcdef".toList[m]? = some c) || decide ("0123456789ABCDEF".toList[m]? = some c)

theorem hexValue_iff (c : Char) (n : Nat) : hexValue c = some n ↔ HexDigit n c := by
  constructor
  · intro h
    unfold hexValue at h
    have key : ∀ (a : Nat), a < 128 → c.toNat = a → c = Char.ofNat a := by
      intro a _ e
      rw [← e, Char.ofNat_toNat]
    have hle : c.toNat < 128 := by
      split at h
      · rename_i h1; have := h1.2; rw [Char.le_def, UInt32.le_iff_toNat_le] at this
        exact Nat.lt_of_le_of_lt this (by decide)
      · split at h
        · rename_i h1; have := h1.2; rw [Char.le_def, UInt32.le_iff_toNat_le] at this
          exact Nat.lt_of_le_of_lt this (by decide)
        · split at h
          · rename_i h1; have := h1.2; rw [Char.le_def, UInt32.le_iff_toNat_le] at this
            exact Nat.lt_of_le_of_lt this (by decide)
          · simp at h
    have hc := key _ hle rfl
    have all : ∀ a : Fin 128, hexOk (Char.ofNat a) = true := by decide +kernel
    have h2 := all ⟨c.toNat, hle⟩
    simp only at h2
    rw [← hc] at h2
    unfold hexOk hexValue at h2
    rw [h] at h2
    simp only [Bool.or_eq_true, decide_eq_true_eq] at h2
    exact h2
  · intro h
    have hn : n < 16 := by
      rcases h with h | h
      · exact (List.getElem?_eq_some_iff.1 h).1
      · exact (List.getElem?_eq_some_iff.1 h).1
    have all : ∀ m : Fin 16, (("0123456789abcdef".toList[m.val]?.map hexValue = some (some m.val)) ∧
        ("0123456789ABCDEF".toList[m.val]?.map hexValue = some (some m.val))) := by decide +kernel
    obtain ⟨a1, a2⟩ := all ⟨n, hn⟩
    rcases h with h | h
    · simp only at a1; rw [h] at a1; simpa using a1
    · simp only at a2; rw [h] at a2; simpa using a2

theorem hex4_complete {n : Nat} {t : List Char} (h : Hex4 n t) (r : List Char) : hex4 (t ++ r) = some (n, r) := by
  obtain ⟨a, b, c, d, x, y, z, u, ha, hb, hc, hd, rfl, rfl⟩ := h
  simp only [List.cons_append, List.nil_append, hex4]
  rw [(hexValue_iff _ _).2 ha, (hexValue_iff _ _).2 hb, (hexValue_iff _ _).2 hc, (hexValue_iff _ _).2 hd]

theorem hex4_sound {cs r : List Char} {n : Nat} (h : hex4 cs = some (n, r)) : ∃ t, Hex4 n t ∧ cs = t ++ r := by
  unfold hex4 at h
  split at h
  · rename_i x y z u r'
    split at h
    · rename_i a b c d ha hb hc hd
      simp only [Option.some.injEq, Prod.mk.injEq] at h
      obtain ⟨rfl, rfl⟩ := h
      exact ⟨[x, y, z, u], ⟨a, b, c, d, x, y, z, u, (hexValue_iff _ _).1 ha, (hexValue_iff _ _).1 hb,
        (hexValue_iff _ _).1 hc, (hexValue_iff _ _).1 hd, rfl, rfl⟩, rfl⟩
    · simp at h
  · simp at h

theorem hex4_lt {n : Nat} {t : List Char} (h : Hex4 n t) : n < 65536 := by
  obtain ⟨a, b, c, d, x, y, z, u, ha, hb, hc, hd, rfl, rfl⟩ := h
  have lt : ∀ {m : Nat} {c : Char}, HexDigit m c → m < 16 := by
    intro m c h
    rcases h with h | h
    · exact (List.getElem?_eq_some_iff.1 h).1
    · exact (List.getElem?_eq_some_iff.1 h).1
  have := lt ha; have := lt hb; have := lt hc; have := lt hd
  omega

/-! ### Characters of strings -/

theorem simpleEscape_iff (c e : Char) : simpleEscape e = some c ↔ (c, e) ∈ shortEscapes := by
  unfold simpleEscape shortEscapes
  simp only [List.mem_cons, Prod.mk.injEq, List.not_mem_nil, or_false]
  constructor
  · intro h
    split at h
    · subst_vars; simp at h; subst h; simp
    · split at h
      · subst_vars; simp at h; subst h; simp
      · split at h
        · subst_vars; simp at h; subst h; simp
        · split at h
          · subst_vars; simp at h; subst h; simp
          · split at h
            · subst_vars; simp at h; subst h; simp
            · split at h
              · subst_vars; simp at h; subst h; simp
              · split at h
                · subst_vars; simp at h; subst h; simp
                · split at h
                  · subst_vars; simp at h; subst h; simp
                  · simp at h
  · rintro (⟨rfl, rfl⟩ | ⟨rfl, rfl⟩ | ⟨rfl, rfl⟩ | ⟨rfl, rfl⟩ | ⟨rfl, rfl⟩ | ⟨rfl, rfl⟩ | ⟨rfl, rfl⟩ | ⟨rfl, rfl⟩) <;>
      decide

theorem char_code (c : Char) : c.toNat < 0xD800 ∨ (0xDFFF < c.toNat ∧ c.toNat < 0x110000) := c.valid

theorem toNat_ofNat {n : Nat} (h : n < 0xD800 ∨ (0xDFFF < n ∧ n < 0x110000)) : (Char.ofNat n).toNat = n := by
  have hv : n.isValidChar := h
  rw [Char.ofNat, dif_pos hv]
  rfl

theorem unicode_code {c : Char} {h : List Char} (hh : Hex4 c.toNat h) (r : List Char) :
    unicodeEscape (h ++ r) = some (c, r) := by
  unfold unicodeEscape
  rw [hex4_complete hh]
  simp only
  have hc := char_code c
  rw [if_neg (by omega), if_neg (by omega), Char.ofNat_toNat]

theorem unicode_pair {c : Char} {h l : List Char} (h0 : 0x10000 ≤ c.toNat)
    (hh : Hex4 (0xD800 + (c.toNat - 0x10000) / 0x400) h) (hl : Hex4 (0xDC00 + (c.toNat - 0x10000) % 0x400) l)
    (r : List Char) : unicodeEscape (h ++ '\\' :: 'u' :: (l ++ r)) = some (c, r) := by
  unfold unicodeEscape
  rw [hex4_complete hh]
  simp only
  have hc := char_code c
  rw [if_neg (by omega), if_pos (by omega), if_pos ⟨trivial, trivial⟩, hex4_complete hl]
  simp only
  rw [if_pos (by omega)]
  have e : 0x10000 + (0xD800 + (c.toNat - 0x10000) / 0x400 - 0xD800) * 0x400
      + (0xDC00 + (c.toNat - 0x10000) % 0x400 - 0xDC00) = c.toNat := by omega
  rw [e, Char.ofNat_toNat]

theorem unicode_sound {cs r : List Char} {c : Char} (h : unicodeEscape cs = some (c, r)) :
    ∃ t, CharText c ('\\' :: 'u' :: t) ∧ cs = t ++ r := by
  unfold unicodeEscape at h
  split at h
  · simp at h
  · rename_i n r₁ h1
    obtain ⟨t, ht, rfl⟩ := hex4_sound h1
    have hn := hex4_lt ht
    split at h
    · simp at h
    · rename_i hlow
      split at h
      · rename_i hhigh
        split at h
        · rename_i a b r₂
          split at h
          · rename_i hab
            obtain ⟨rfl, rfl⟩ := hab
            split at h
            · simp at h
            · rename_i m r₃ h2
              obtain ⟨u, hu, rfl⟩ := hex4_sound h2
              split at h
              · rename_i hm
                simp only [Option.some.injEq, Prod.mk.injEq] at h
                obtain ⟨rfl, rfl⟩ := h
                have hc : (Char.ofNat (0x10000 + (n - 0xD800) * 0x400 + (m - 0xDC00))).toNat
                    = 0x10000 + (n - 0xD800) * 0x400 + (m - 0xDC00) := toNat_ofNat (by omega)
                refine ⟨t ++ '\\' :: 'u' :: u, ?_, by simp⟩
                refine .pair (by rw [hc]; omega) ?_ ?_
                · rw [hc]
                  have : 0xD800 + (0x10000 + (n - 0xD800) * 0x400 + (m - 0xDC00) - 0x10000) / 0x400 = n := by omega
                  rw [this]
                  exact ht
                · rw [hc]
                  have : 0xDC00 + (0x10000 + (n - 0xD800) * 0x400 + (m - 0xDC00) - 0x10000) % 0x400 = m := by omega
                  rw [this]
                  exact hu
              · simp at h
          · simp at h
        · simp at h
      · simp only [Option.some.injEq, Prod.mk.injEq] at h
        obtain ⟨rfl, rfl⟩ := h
        refine ⟨t, .code ?_, rfl⟩
        rw [toNat_ofNat (by omega)]
        exact ht

theorem parseStr_complete {s u : List Char} (h : InsideText s u) : ∀ (fuel : Nat) (r : List Char),
    u.length + 1 ≤ fuel → parseStr fuel (u ++ '"' :: r) = some (s, r) := by
  induction h with
  | nil =>
    intro fuel r hf
    cases fuel with
    | zero => simp at hf
    | succ fuel => simp [parseStr]
  | @cons c s t u hc _ ih =>
    intro fuel r hf
    cases fuel with
    | zero => simp at hf
    | succ fuel =>
      rw [List.length_append] at hf
      cases hc with
      | plain h1 h2 h3 =>
        simp only [List.length_cons, List.length_nil] at hf
        simp only [List.cons_append, List.nil_append, parseStr]
        rw [if_neg h1, if_neg h2, if_neg (by omega), ih fuel r (by omega)]
      | @short e he =>
        simp only [List.length_cons, List.length_nil] at hf
        have hu : e ≠ 'u' := by
          rintro rfl
          simp [shortEscapes] at he
        simp only [List.cons_append, List.nil_append, parseStr, if_true]
        rw [if_neg (by decide), if_neg hu, (simpleEscape_iff _ _).2 he]
        simp only
        rw [ih fuel r (by omega)]
      | @code h hh =>
        simp only [List.length_cons] at hf
        simp only [List.cons_append, List.append_assoc, parseStr, if_true]
        rw [if_neg (by decide), unicode_code hh]
        simp only
        rw [ih fuel r (by omega)]
      | @pair h l h0 hh hl =>
        simp only [List.length_cons, List.length_append] at hf
        simp only [List.cons_append, List.append_assoc, parseStr, if_true]
        rw [if_neg (by decide), unicode_pair h0 hh hl]
        simp only
        rw [ih fuel r (by omega)]

theorem parseStr_sound : ∀ (fuel : Nat) (cs s r : List Char), parseStr fuel cs = some (s, r) →
    ∃ u, InsideText s u ∧ cs = u ++ '"' :: r := by
  intro fuel
  induction fuel with
  | zero => intro cs s r h; simp [parseStr] at h
  | succ fuel ih =>
    intro cs s r h
    cases cs with
    | nil => simp [parseStr] at h
    | cons c cs =>
      unfold parseStr at h
      split at h
      · rename_i hc
        subst hc
        simp only [Option.some.injEq, Prod.mk.injEq] at h
        obtain ⟨rfl, rfl⟩ := h
        exact ⟨[], .nil, rfl⟩
      · rename_i h1
        split at h
        · rename_i h2
          subst h2
          split at h
          · simp at h
          · rename_i e cs
            split at h
            · rename_i he
              subst he
              split at h
              · simp at h
              · rename_i x r₁ hx
                split at h
                · simp at h
                · rename_i s' r' hr
                  simp only [Option.some.injEq, Prod.mk.injEq] at h
                  obtain ⟨rfl, rfl⟩ := h
                  obtain ⟨t, ht, rfl⟩ := unicode_sound hx
                  obtain ⟨u, hu, rfl⟩ := ih _ _ _ hr
                  exact ⟨_, .cons ht hu, by simp⟩
            · split at h
              · simp at h
              · rename_i x hx
                split at h
                · simp at h
                · rename_i s' r' hr
                  simp only [Option.some.injEq, Prod.mk.injEq] at h
                  obtain ⟨rfl, rfl⟩ := h
                  obtain ⟨u, hu, rfl⟩ := ih _ _ _ hr
                  exact ⟨_, .cons (.short ((simpleEscape_iff _ _).1 hx)) hu, by simp⟩
        · rename_i h2
          split at h
          · simp at h
          · rename_i h3
            split at h
            · simp at h
            · rename_i s' r' hr
              simp only [Option.some.injEq, Prod.mk.injEq] at h
              obtain ⟨rfl, rfl⟩ := h
              obtain ⟨u, hu, rfl⟩ := ih _ _ _ hr
              exact ⟨_, .cons (.plain h1 h2 (by omega)) hu, by simp⟩

/-! ### Numbers -/

theorem jsonDigit_iff (c : Char) : isJsonDigit c = true ↔ Digit c := by
  unfold isJsonDigit Digit
  rw [decide_eq_true_eq]
  constructor
  · intro h
    have hle : c.toNat < 128 := by
      have := h.2
      rw [Char.le_def, UInt32.le_iff_toNat_le] at this
      exact Nat.lt_of_le_of_lt this (by decide)
    have all : ∀ a : Fin 128, '0' ≤ Char.ofNat a ∧ Char.ofNat a ≤ '9' → Char.ofNat a ∈ "0123456789".toList := by
      decide +kernel
    have h2 := all ⟨c.toNat, hle⟩
    simp only [Char.ofNat_toNat] at h2
    exact h2 h
  · have all : ∀ c ∈ "0123456789".toList, '0' ≤ c ∧ c ≤ '9' := by decide +kernel
    exact all c

theorem digit_value {c : Char} (h : Digit c) : c.toNat - '0'.toNat = "0123456789".toList.idxOf c := by
  have all : ∀ c ∈ "0123456789".toList, c.toNat - '0'.toNat = "0123456789".toList.idxOf c := by decide +kernel
  exact all c h

theorem digitsValue_eq {ds : List Char} (h : ∀ c ∈ ds, Digit c) : digitsValue ds = decimalValue ds := by
  unfold digitsValue decimalValue
  generalize 0 = n
  induction ds generalizing n with
  | nil => rfl
  | cons c ds ih =>
    rw [List.foldl_cons, List.foldl_cons, digit_value (h c (List.mem_cons_self ..)), Nat.mul_comm 10]
    exact ih (fun x hx => h x (List.mem_cons_of_mem _ hx)) _

/-- The text does not begin with a digit. -/
def NoDigit (r : List Char) : Prop := ∀ c r', r = c :: r' → isJsonDigit c = false

theorem takeDigits_complete {ds : List Char} (h : ∀ c ∈ ds, Digit c) {r : List Char} (hr : NoDigit r) :
    takeDigits (ds ++ r) = (ds, r) := by
  induction ds with
  | nil =>
    cases r with
    | nil => rfl
    | cons c r => rw [List.nil_append, takeDigits, if_neg (by simp [hr c r rfl])]
  | cons c ds ih =>
    rw [List.cons_append, takeDigits, if_pos ((jsonDigit_iff c).2 (h c (List.mem_cons_self ..))),
      ih (fun x hx => h x (List.mem_cons_of_mem _ hx))]

theorem takeDigits_sound (cs : List Char) : (∀ c ∈ (takeDigits cs).1, Digit c) ∧
    cs = (takeDigits cs).1 ++ (takeDigits cs).2 := by
  induction cs with
  | nil => simp [takeDigits]
  | cons c r ih =>
    unfold takeDigits
    split
    · rename_i hc
      refine ⟨?_, by simp only [List.cons_append]; rw [← ih.2]⟩
      intro x hx
      rcases List.mem_cons.1 hx with rfl | hx
      · exact (jsonDigit_iff _).1 hc
      · exact ih.1 x hx
    · simp

theorem parseInt_complete {ds : List Char} (h : IntegerText ds) {r : List Char} (hr : NoDigit r) :
    parseInt (ds ++ r) = some (ds, r) := by
  unfold parseInt
  rw [takeDigits_complete h.2.1 hr]
  cases ds with
  | nil => exact absurd rfl h.1
  | cons d ds =>
    simp only
    rw [if_neg]
    rintro ⟨rfl, hne⟩
    exact hne (h.2.2 ds rfl)

theorem parseInt_sound {cs ds r : List Char} (h : parseInt cs = some (ds, r)) : IntegerText ds ∧ cs = ds ++ r := by
  have ht := takeDigits_sound cs
  unfold parseInt at h
  split at h
  · simp at h
  · rename_i d ds' r' e
    rw [e] at ht
    split at h
    · simp at h
    · rename_i hz
      simp only [Option.some.injEq, Prod.mk.injEq] at h
      obtain ⟨rfl, rfl⟩ := h
      refine ⟨⟨by simp, ht.1, ?_⟩, ht.2⟩
      intro r hr
      injection hr with h1 h2
      subst h1 h2
      exact Classical.byContradiction fun hne => hz ⟨rfl, hne⟩

/-- What may follow a number: nothing that would continue it. -/
def NumberEnds (r : List Char) : Prop := ∀ c r', r = c :: r' → isJsonDigit c = false ∧ c ≠ '.' ∧ c ≠ 'e' ∧ c ≠ 'E'

theorem NumberEnds.noDigit {r : List Char} (h : NumberEnds r) : NoDigit r := fun c r' e => (h c r' e).1

theorem parseFraction_complete {fr : List Char} (h : FractionText fr) {r : List Char} (hr : NoDigit r)
    (hp : ∀ r', r ≠ '.' :: r') : parseFraction (fr ++ r) = some (fr, r) := by
  rcases h with rfl | ⟨ds, hne, hd, rfl⟩
  · unfold parseFraction
    split
    · rename_i r' e
      exact absurd e (hp r')
    · rfl
  · rw [List.cons_append, parseFraction, takeDigits_complete hd hr]
    cases ds with
    | nil => exact absurd rfl hne
    | cons d ds => rfl

theorem parseFraction_sound {cs fr r : List Char} (h : parseFraction cs = some (fr, r)) :
    FractionText fr ∧ cs = fr ++ r := by
  unfold parseFraction at h
  split at h
  · rename_i r'
    have ht := takeDigits_sound r'
    split at h
    · simp at h
    · rename_i ds r'' hne e
      rw [e] at ht
      simp only [Option.some.injEq, Prod.mk.injEq] at h
      obtain ⟨rfl, rfl⟩ := h
      refine ⟨.inr ⟨ds, ?_, ht.1, rfl⟩, by rw [List.cons_append, ← ht.2]⟩
      rintro rfl
      exact hne rfl
  · simp only [Option.some.injEq, Prod.mk.injEq] at h
    obtain ⟨rfl, rfl⟩ := h
    exact ⟨.inl rfl, rfl⟩

theorem digit_not_sign {c : Char} (h : Digit c) : c ≠ '+' ∧ c ≠ '-' ∧ c ≠ '.' ∧ c ≠ 'e' ∧ c ≠ 'E' := by
  have all : ∀ c ∈ "0123456789".toList, c ≠ '+' ∧ c ≠ '-' ∧ c ≠ '.' ∧ c ≠ 'e' ∧ c ≠ 'E' := by decide +kernel
  exact all c h

theorem parseExponent_complete {ex : List Char} (h : ExponentText ex) {r : List Char} (hr : NumberEnds r) :
    parseExponent (ex ++ r) = some (ex, r) := by
  rcases h with rfl | ⟨e, sign, ds, he, hs, hne, hd, rfl⟩
  · cases r with
    | nil => rfl
    | cons c r =>
      obtain ⟨_, _, h1, h2⟩ := hr c r rfl
      rw [List.nil_append, parseExponent, if_neg (by simp [h1, h2])]
  · have hsign : parseExponentSign (sign ++ (ds ++ r)) = (sign, ds ++ r) := by
      rcases hs with rfl | rfl | rfl
      · cases ds with
        | nil => exact absurd rfl hne
        | cons d ds =>
          obtain ⟨h1, h2, _⟩ := digit_not_sign (hd d (List.mem_cons_self ..))
          unfold parseExponentSign
          split
          · rename_i e; simp at e; exact absurd e.1 h1
          · rename_i e; simp at e; exact absurd e.1 h2
          · rfl
      · rfl
      · rfl
    rw [List.cons_append, List.cons_append, List.append_assoc, parseExponent, if_pos he, hsign]
    simp only
    rw [takeDigits_complete hd hr.noDigit]
    cases ds with
    | nil => exact absurd rfl hne
    | cons d ds => rfl

theorem parseExponentSign_sound (cs : List Char) : ((parseExponentSign cs).1 = [] ∨ (parseExponentSign cs).1 = ['+'] ∨
    (parseExponentSign cs).1 = ['-']) ∧ cs = (parseExponentSign cs).1 ++ (parseExponentSign cs).2 := by
  unfold parseExponentSign
  split <;> simp

theorem parseExponent_sound {cs ex r : List Char} (h : parseExponent cs = some (ex, r)) :
    ExponentText ex ∧ cs = ex ++ r := by
  unfold parseExponent at h
  split at h
  · simp only [Option.some.injEq, Prod.mk.injEq] at h
    obtain ⟨rfl, rfl⟩ := h
    exact ⟨.inl rfl, rfl⟩
  · rename_i c r'
    split at h
    · rename_i hc
      obtain ⟨hs1, hs2⟩ := parseExponentSign_sound r'
      have ht := takeDigits_sound (parseExponentSign r').2
      split at h
      · simp at h
      · rename_i ds r'' hne e
        rw [e] at ht
        simp only [Option.some.injEq, Prod.mk.injEq] at h
        obtain ⟨rfl, rfl⟩ := h
        refine ⟨.inr ⟨c, _, ds, hc, hs1, ?_, ht.1, rfl⟩, ?_⟩
        · rintro rfl
          exact hne rfl
        · rw [List.cons_append, List.cons_append, List.append_assoc, ← ht.2, ← hs2]
    · simp only [Option.some.injEq, Prod.mk.injEq] at h
      obtain ⟨rfl, rfl⟩ := h
      exact ⟨.inl rfl, rfl⟩

/-- What a number may begin with. -/
theorem integer_head {ds : List Char} (h : IntegerText ds) : ∃ c r, ds = c :: r ∧ Digit c := by
  cases ds with
  | nil => exact absurd rfl h.1
  | cons c r => exact ⟨c, r, rfl, h.2.1 c (List.mem_cons_self ..)⟩

theorem exponent_ends {ex : List Char} (h : ExponentText ex) {r : List Char} (hr : NumberEnds r) :
    NoDigit (ex ++ r) ∧ ∀ r', ex ++ r ≠ '.' :: r' := by
  rcases h with rfl | ⟨e, sign, ds, he, _, _, _, rfl⟩
  · exact ⟨hr.noDigit, fun r' e => (hr _ _ e).2.1 rfl⟩
  · constructor
    · intro c r' e'
      simp only [List.cons_append, List.cons.injEq] at e'
      rw [← e'.1]
      rcases he with rfl | rfl <;> decide
    · intro r' e'
      simp only [List.cons_append, List.cons.injEq] at e'
      rcases he with rfl | rfl
      · exact absurd e'.1 (by decide)
      · exact absurd e'.1 (by decide)

theorem fraction_ends {fr ex : List Char} (h : FractionText fr) (hx : ExponentText ex) {r : List Char} (hr : NumberEnds r) :
    NoDigit (fr ++ (ex ++ r)) := by
  rcases h with rfl | ⟨ds, _, _, rfl⟩
  · exact (exponent_ends hx hr).1
  · intro c r' e
    simp only [List.cons_append, List.cons.injEq] at e
    rw [← e.1]
    decide

theorem parseNumber_complete {j : Json} {t : List Char} (h : NumberText j t) {r : List Char} (hr : NumberEnds r) :
    parseNumber (t ++ r) = some (j, r) := by
  cases h with
  | nat hd =>
    obtain ⟨c, r', rfl, hc⟩ := integer_head hd
    have hm := (digit_not_sign hc).2.1
    unfold parseNumber
    have e : parseMinus ((c :: r') ++ r) = ([], (c :: r') ++ r) := by
      unfold parseMinus
      split
      · rename_i e; simp at e; exact absurd e.1 hm
      · rfl
    rw [e]
    simp only
    have h2 := parseFraction_complete (.inl rfl) hr.noDigit (fun r' e => (hr _ _ e).2.1 rfl)
    have h3 := parseExponent_complete (.inl rfl) hr
    rw [List.nil_append] at h2 h3
    rw [parseInt_complete hd hr.noDigit]
    simp only
    rw [h2]
    simp only
    rw [h3]
    simp only [and_self, if_true]
    rw [digitsValue_eq hd.2.1]
  | @num sign ds fr ex hs hd hf hx hne =>
    unfold parseNumber
    have e : parseMinus (sign ++ ds ++ fr ++ ex ++ r) = (sign, ds ++ (fr ++ (ex ++ r))) := by
      unfold parseMinus
      rcases hs with rfl | rfl
      · obtain ⟨c, r', rfl, hc⟩ := integer_head hd
        have hm := (digit_not_sign hc).2.1
        split
        · rename_i e; simp at e; exact absurd e.1 hm
        · simp
      · simp
    rw [e]
    simp only
    obtain ⟨x1, x2⟩ := exponent_ends hx hr
    rw [parseInt_complete hd (fraction_ends hf hx hr)]
    simp only
    rw [parseFraction_complete hf x1 x2]
    simp only
    rw [parseExponent_complete hx hr]
    simp only
    rw [if_neg hne]

theorem parseNumber_sound {cs r : List Char} {j : Json} (h : parseNumber cs = some (j, r)) :
    ∃ t, NumberText j t ∧ cs = t ++ r := by
  unfold parseNumber at h
  have hsign : ∃ sign r₀, parseMinus cs = (sign, r₀) ∧ (sign = [] ∨ sign = ['-']) ∧ cs = sign ++ r₀ := by
    unfold parseMinus
    split
    · exact ⟨_, _, rfl, .inr rfl, rfl⟩
    · exact ⟨_, _, rfl, .inl rfl, rfl⟩
  obtain ⟨sign, r₀, e, hs, ecs⟩ := hsign
  rw [e] at h
  simp only at h
  split at h
  · simp at h
  · rename_i ds r₁ h1
    obtain ⟨hd, rfl⟩ := parseInt_sound h1
    split at h
    · simp at h
    · rename_i fr r₂ h2
      obtain ⟨hf, rfl⟩ := parseFraction_sound h2
      split at h
      · simp at h
      · rename_i ex r₃ h3
        obtain ⟨hx, rfl⟩ := parseExponent_sound h3
        split at h
        · rename_i hall
          obtain ⟨rfl, rfl, rfl⟩ := hall
          simp only [Option.some.injEq, Prod.mk.injEq] at h
          obtain ⟨rfl, rfl⟩ := h
          refine ⟨ds, ?_, by simpa using ecs⟩
          rw [digitsValue_eq hd.2.1]
          exact .nat hd
        · rename_i hne
          simp only [Option.some.injEq, Prod.mk.injEq] at h
          obtain ⟨rfl, rfl⟩ := h
          exact ⟨_, .num hs hd hf hx hne, by rw [ecs]; simp⟩

end Qlc
