import Verif.Model.Shared
/-
Writing at positions: what is known of a file that several processes write the same text to.
-/
set_option autoImplicit false

namespace Qlc

theorem utf8_length (t : String) : (utf8 t).length = byteLength t := by
  unfold utf8 byteLength
  rfl

theorem decode_utf8 (t : String) : decodeUtf8 (utf8 t) = .ok t := by
  have h : (⟨(utf8 t).toArray⟩ : ByteArray) = t.toByteArray := by
    unfold utf8
    rfl
  unfold decodeUtf8
  rw [h, String.fromUTF8?, dif_pos t.isValidUTF8]
  rfl

/-- Exactly the encodings of texts are read as texts. -/
theorem decode_iff (b : List UInt8) (t : String) : decodeUtf8 b = .ok t ↔ b = utf8 t := by
  constructor
  · intro h
    unfold decodeUtf8 String.fromUTF8? at h
    split at h
    · rename_i s hs
      injection h with h
      subst h
      split at hs
      · injection hs with hs
        subst hs
        simp [utf8, String.fromUTF8, String.toUTF8]
      · cases hs
    · cases h
  · rintro rfl
    exact decode_utf8 t

/-- The bytes agree with the text up to a position, and there are not more of them. -/
def AgreeTo (b t : List UInt8) (n : Nat) : Prop :=
  b.length ≤ t.length ∧ ∀ k, k < n → b[k]? = t[k]?

theorem agreeTo_nil (t : List UInt8) : AgreeTo [] t 0 := ⟨Nat.zero_le _, fun k h => absurd h (Nat.not_lt_zero k)⟩

theorem AgreeTo.all {b t : List UInt8} {n : Nat} (h : AgreeTo b t n) (hn : t.length ≤ n) : b = t := by
  apply List.ext_getElem?
  intro k
  by_cases hk : k < n
  · exact h.2 k hk
  · rw [List.getElem?_eq_none (by have := h.1; omega), List.getElem?_eq_none (by omega)]

theorem chunk_length (t : List UInt8) (n m : Nat) : ((t.drop n).take m).length = min m (t.length - n) := by
  rw [List.length_take, List.length_drop]

theorem overlay_length {b t : List UInt8} {n m : Nat} (hb : b.length ≤ t.length) :
    (overlay b n ((t.drop n).take m)).length ≤ t.length := by
  unfold overlay
  split
  · exact hb
  · rename_i hne
    have hl : 0 < ((t.drop n).take m).length := List.length_pos_iff.2 hne
    simp only [List.length_append, List.length_take, List.length_drop, List.length_replicate] at hl ⊢
    omega

theorem overlay_before {b c : List UInt8} {n k : Nat} (hk : k < n) (hb : k < b.length) :
    (overlay b n c)[k]? = b[k]? := by
  unfold overlay
  split
  · rfl
  · rw [List.append_assoc, List.getElem?_append_left (by
      rw [List.length_take, List.length_append, List.length_replicate]; omega),
      List.getElem?_take_of_lt hk, List.getElem?_append_left hb]

theorem overlay_inside {b c : List UInt8} {n k : Nat} (h1 : n ≤ k) (h2 : k < n + c.length) :
    (overlay b n c)[k]? = c[k - n]? := by
  unfold overlay
  split
  · rename_i h
    subst h
    simp only [List.length_nil] at h2
    omega
  · have hl : ((b ++ List.replicate (n - b.length) 0).take n).length = n := by
      rw [List.length_take, List.length_append, List.length_replicate]; omega
    rw [List.append_assoc, List.getElem?_append_right (by rw [hl]; exact h1), hl,
      List.getElem?_append_left (by omega)]

theorem overlay_beyond {b c : List UInt8} {n k : Nat} (hk : n + c.length ≤ k) (hb : k < b.length) :
    (overlay b n c)[k]? = b[k]? := by
  unfold overlay
  split
  · rfl
  · have hl : ((b ++ List.replicate (n - b.length) 0).take n).length = n := by
      rw [List.length_take, List.length_append, List.length_replicate]; omega
    rw [List.append_assoc, List.getElem?_append_right (by rw [hl]; omega), hl,
      List.getElem?_append_right (by omega), List.getElem?_drop]
    congr 1
    omega

/-- Another process writes a part of the text where it belongs. -/
theorem AgreeTo.other {b t : List UInt8} {n : Nat} (h : AgreeTo b t n) (n' m : Nat) :
    AgreeTo (overlay b n' ((t.drop n').take m)) t n := by
  refine ⟨overlay_length h.1, fun k hk => ?_⟩
  by_cases hb : k < t.length
  · have hkb : k < b.length := by
      have := h.2 k hk
      rw [List.getElem?_eq_getElem hb] at this
      exact (List.getElem?_eq_some_iff.1 this).1
    by_cases h1 : k < n'
    · rw [overlay_before h1 hkb, h.2 k hk]
    · by_cases h2 : k < n' + ((t.drop n').take m).length
      · rw [overlay_inside (by omega) h2]
        rw [chunk_length] at h2
        rw [List.getElem?_take_of_lt (by omega), List.getElem?_drop]
        congr 1
        omega
      · rw [overlay_beyond (by omega) hkb, h.2 k hk]
  · rw [List.getElem?_eq_none (by have := overlay_length (n := n') (m := m) h.1; omega),
      List.getElem?_eq_none (by omega)]

/-- The process that has written up to the position goes on. -/
theorem AgreeTo.own {b t : List UInt8} {n : Nat} (h : AgreeTo b t n) (m : Nat) :
    AgreeTo (overlay b n ((t.drop n).take m)) t (n + m) := by
  refine ⟨overlay_length h.1, fun k hk => ?_⟩
  by_cases h1 : k < n
  · exact (h.other n m).2 k h1
  · by_cases hb : k < t.length
    · have h2 : k < n + ((t.drop n).take m).length := by rw [chunk_length]; omega
      rw [overlay_inside (by omega) h2, List.getElem?_take_of_lt (by omega), List.getElem?_drop]
      congr 1
      omega
    · rw [List.getElem?_eq_none (by have := overlay_length (n := n) (m := m) h.1; omega),
        List.getElem?_eq_none (by omega)]

end Qlc
