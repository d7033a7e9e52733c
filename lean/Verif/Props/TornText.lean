import Verif.Props.JsonText
import Verif.Props.Crash
import Verif.Lemmas.Bytes
/-
C64, the contents of a file whose writing was stopped: the model's account of it in terms of characters is what decoding
the first bytes of the text gives.
-/
set_option autoImplicit false

namespace Qlc
open Spec

theorem utf8_toList (t : String) : utf8 t = utf8Bytes t.toList := by
  apply toByteArray_inj
  rw [utf8_eq, String.utf8Encode_toList]
  have h : (⟨(utf8 t).toArray⟩ : ByteArray) = t.toByteArray := by
    unfold utf8
    rfl
  rw [← h]
  apply ByteArray.ext
  simp

theorem cutChars_ok : ∀ (l l' : List Char) (n : Nat), cutChars l n = .ok l' → utf8Bytes l' = (utf8Bytes l).take n
  | [], l', n, h => by
    cases h
    simp [utf8Bytes]
  | c :: cs, l', n, h => by
    rw [cutChars] at h
    split at h
    · rename_i hn
      cases h
      simp [hn, utf8Bytes]
    · split at h
      · cases h
      · rename_i h0 hc
        have hlen : (String.utf8EncodeChar c).length = c.utf8Size := String.length_utf8EncodeChar c
        split at h
        · rename_i l₁ h₁
          cases h
          have ih := cutChars_ok cs l₁ _ h₁
          show String.utf8EncodeChar c ++ utf8Bytes l₁ = (String.utf8EncodeChar c ++ utf8Bytes cs).take n
          rw [List.take_append, List.take_of_length_le (by omega), ih, hlen]
        · cases h

theorem cutChars_prefix : ∀ (l x : List Char), cutChars (l ++ x) (utf8Bytes l).length = .ok l
  | [], [] => rfl
  | [], c :: x => by simp [cutChars, utf8Bytes]
  | c :: l, x => by
    have hlen : (String.utf8EncodeChar c).length = c.utf8Size := String.length_utf8EncodeChar c
    have hpos : 0 < c.utf8Size := Char.utf8Size_pos c
    have e : (utf8Bytes (c :: l)).length = c.utf8Size + (utf8Bytes l).length := by
      show (String.utf8EncodeChar c ++ utf8Bytes l).length = _
      rw [List.length_append, hlen]
    show cutChars (c :: (l ++ x)) _ = _
    rw [e, cutChars, if_neg (by omega), if_neg (by omega), Nat.add_sub_cancel_left, cutChars_prefix l x]

theorem cutChars_error : ∀ (l : List Char) (n : Nat) (e : String), cutChars l n = .error e →
    e = "stream did not contain valid UTF-8"
  | [], n, e, h => by cases h
  | c :: cs, n, e, h => by
    rw [cutChars] at h
    split at h
    · cases h
    · split at h
      · cases h
        rfl
      · split at h
        · cases h
        · rename_i e₁ h₁
          cases h
          exact cutChars_error cs _ _ h₁

theorem utf8_sizes : ∀ l : List Char, (utf8Bytes l).length = (l.map Char.utf8Size).sum
  | [] => rfl
  | c :: l => by
    show (String.utf8EncodeChar c ++ utf8Bytes l).length = _
    rw [List.length_append, String.length_utf8EncodeChar, utf8_sizes l]
    rfl

theorem cutChars_whole (l l' : List Char) (n : Nat) (h : utf8Bytes l' = (utf8Bytes l).take n) :
    cutChars l n = .ok l' := by
  have hp : l' <+: l := by
    refine List.isPrefix_of_utf8Encode_append_eq_utf8Encode ((utf8Bytes l).drop n).toByteArray ?_
    rw [← utf8_eq, ← utf8_eq, h, ← List.toByteArray_append, List.take_append_drop]
  obtain ⟨x, rfl⟩ := hp
  by_cases hn : n ≤ (utf8Bytes (l' ++ x)).length
  · have e : n = (utf8Bytes l').length := by rw [h, List.length_take]; omega
    rw [e]
    exact cutChars_prefix l' x
  · rw [List.take_of_length_le (by omega)] at h
    have hx : x = [] := by
      rw [utf8_append] at h
      have := congrArg List.length h
      rw [List.length_append] at this
      cases x with
      | nil => rfl
      | cons c x =>
        have hpos : 0 < c.utf8Size := Char.utf8Size_pos c
        rw [utf8_sizes (c :: x)] at this
        simp only [List.map_cons, List.sum_cons] at this
        omega
    subst hx
    rw [List.append_nil] at hn ⊢
    exact cutChars_all l' n (by rw [← utf8_sizes]; omega)

/-- **C64: what a stopped write leaves.** If the first `n` bytes of a text have been written, then reading the file gives
what these bytes are the encoding of, and an error if they end inside a character. -/
theorem C64_torn_contents (t : String) (n : Nat) : cut t n = decodeUtf8 ((utf8 t).take n) := by
  unfold cut
  cases h : cutChars t.toList n with
  | ok l =>
    refine ((decode_iff _ _).2 ?_).symm
    rw [utf8_toList, utf8_toList, String.toList_ofList, cutChars_ok _ _ _ h]
  | error e =>
    cases hd : decodeUtf8 ((utf8 t).take n) with
    | ok t' =>
      exfalso
      rw [decode_iff, utf8_toList, utf8_toList] at hd
      rw [cutChars_whole _ _ _ hd.symm] at h
      cases h
    | error e' =>
      have h1 := cutChars_error _ _ _ h
      unfold decodeUtf8 at hd
      split at hd
      · cases hd
      · cases hd
        rw [h1]

/-- A letter of two bytes, cut before, inside and after. -/
example : cut "aé" 1 = .ok "a" ∧ cut "aé" 2 = .error "stream did not contain valid UTF-8" ∧ cut "aé" 3 = .ok "aé" := by
  decide +kernel

end Qlc
