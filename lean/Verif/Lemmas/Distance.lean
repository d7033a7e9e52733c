import Verif.Spec.Distance
import Mathlib.Tactic.Linarith
/-
Alignments: what a sequence of typing mistakes does to a text, from left to right (C136).
-/
set_option autoImplicit false

namespace Qlc
open Spec

variable {α : Type}

/-- An alignment of two texts: characters kept, replaced, left out, put in; or two characters exchanged, with everything
between them left out and put in. -/
inductive Align : List α → List α → Nat → Prop where
  | nil : Align [] [] 0
  | keep {a b : List α} {n : Nat} (x : α) : Align a b n → Align (x :: a) (x :: b) n
  | sub {a b : List α} {n : Nat} (x y : α) : Align a b n → Align (x :: a) (y :: b) (n + 1)
  | del {a b : List α} {n : Nat} (x : α) : Align a b n → Align (x :: a) b (n + 1)
  | ins {a b : List α} {n : Nat} (y : α) : Align a b n → Align a (y :: b) (n + 1)
  | cross {a b : List α} {n : Nat} (x y : α) (u v : List α) : Align a b n →
      Align (x :: (u ++ y :: a)) (y :: (v ++ x :: b)) (n + u.length + v.length + 1)

theorem align_refl : ∀ a : List α, Align a a 0
  | [] => .nil
  | x :: a => .keep x (align_refl a)

theorem align_delMany {a b : List α} {n : Nat} (h : Align a b n) : ∀ d : List α, Align (d ++ a) b (n + d.length)
  | [] => h
  | x :: d => .del x (align_delMany h d)

theorem align_insMany {a b : List α} {n : Nat} (h : Align a b n) : ∀ d : List α, Align a (d ++ b) (n + d.length)
  | [] => h
  | x :: d => .ins x (align_insMany h d)

/-- One typing mistake, from left to right. -/
inductive Ed : List α → List α → Prop where
  | ins {b : List α} (x : α) : Ed b (x :: b)
  | del {b : List α} (x : α) : Ed (x :: b) b
  | rep {b : List α} (x y : α) : Ed (x :: b) (y :: b)
  | swap {b : List α} (x y : α) : Ed (x :: y :: b) (y :: x :: b)
  | skip {b c : List α} (z : α) : Ed b c → Ed (z :: b) (z :: c)

theorem ed_prefix {b c : List α} (h : Ed b c) : ∀ u : List α, Ed (u ++ b) (u ++ c)
  | [] => h
  | z :: u => .skip z (ed_prefix h u)

theorem ed_of_oneEdit {b c : List α} (h : OneEdit b c) : Ed b c := by
  cases h with
  | insert u v x => exact ed_prefix (.ins x) u
  | delete u v x => exact ed_prefix (.del x) u
  | replace u v x y => exact ed_prefix (.rep x y) u
  | swap u v x y => exact ed_prefix (.swap x y) u

theorem oneEdit_cons {b c : List α} (h : OneEdit b c) (z : α) : OneEdit (z :: b) (z :: c) := by
  cases h with
  | insert u v x => exact .insert (z :: u) v x
  | delete u v x => exact .delete (z :: u) v x
  | replace u v x y => exact .replace (z :: u) v x y
  | swap u v x y => exact .swap (z :: u) v x y

/-- What stands at the first character of the second text: after some deletions, it is kept, replaces one, is put in, or is
exchanged. -/
theorem align_head {a b : List α} {z : α} {n : Nat} (h : Align a (z :: b) n) : ∃ d a' n', a = d ++ a' ∧ n = n' + d.length ∧
    ((∃ a'', a' = z :: a'' ∧ Align a'' b n') ∨
     (∃ w a'' m, a' = w :: a'' ∧ n' = m + 1 ∧ Align a'' b m) ∨
     (∃ m, n' = m + 1 ∧ Align a' b m) ∨
     (∃ x u v a'' b'' m, a' = x :: (u ++ z :: a'') ∧ b = v ++ x :: b'' ∧ n' = m + u.length + v.length + 1 ∧
       Align a'' b'' m)) := by
  generalize hc : z :: b = c at h
  induction h with
  | nil => cases hc
  | keep x h _ => cases hc; exact ⟨[], _, _, rfl, rfl, .inl ⟨_, rfl, h⟩⟩
  | sub x y h _ => cases hc; exact ⟨[], _, _, rfl, rfl, .inr (.inl ⟨x, _, _, rfl, rfl, h⟩)⟩
  | del x _ ih =>
    obtain ⟨d, a', n', h1, h2, h3⟩ := ih hc
    exact ⟨x :: d, a', n', by rw [h1]; rfl, by rw [h2]; rfl, h3⟩
  | ins y h _ => cases hc; exact ⟨[], _, _, rfl, rfl, .inr (.inr (.inl ⟨_, rfl, h⟩))⟩
  | cross x y u v h _ => cases hc; exact ⟨[], _, _, rfl, rfl, .inr (.inr (.inr ⟨x, u, v, _, _, _, rfl, rfl, rfl, h⟩))⟩

/-- There is an alignment of at most that cost. -/
def AlignLe (a b : List α) (n : Nat) : Prop := ∃ m ≤ n, Align a b m

theorem Align.le {a b : List α} {m n : Nat} (h : Align a b m) (hn : m ≤ n) : AlignLe a b n := ⟨m, hn, h⟩

theorem Align.cast {a b : List α} {m n : Nat} (h : Align a b m) (hn : m = n) : Align a b n := hn ▸ h

/-- A kept character swapped with the next one. -/
theorem align_keep_swap {a b : List α} {n : Nat} {x z : α} (h : Align a (z :: b) n) :
    AlignLe (x :: a) (z :: x :: b) (n + 1) := by
  have k := align_head h
  clear h
  obtain ⟨d, a', n', rfl, rfl, h⟩ := k
  rcases h with ⟨a'', rfl, h⟩ | ⟨w, a'', m, rfl, rfl, h⟩ | ⟨m, rfl, h⟩ | ⟨x₂, u, v, a'', b'', m, rfl, rfl, rfl, h⟩
  · exact (Align.cross x z d [] h).le (by simp)
  · exact (Align.ins z (.keep x (align_delMany (.del w h) d))).le (by omega)
  · exact (Align.ins z (.keep x (align_delMany h d))).le (by omega)
  · have h1 := align_insMany (.keep x₂ (align_delMany (.del z h) u)) v
    exact (Align.ins z (.keep x (align_delMany h1 d))).le (by omega)

/-- What an edit does to a text with a marked character. -/
theorem ed_around {x : α} {b c : List α} : ∀ {v : List α}, Ed (v ++ x :: b) c →
    (∃ v', v'.length ≤ v.length + 1 ∧ c = v' ++ x :: b) ∨ c = v ++ b ∨ (∃ z, c = v ++ z :: b) ∨
    (∃ v' w, v = v' ++ [w] ∧ c = v' ++ x :: w :: b) ∨ (∃ q b', b = q :: b' ∧ c = v ++ q :: x :: b') ∨
    (∃ b₂, Ed b b₂ ∧ c = v ++ x :: b₂)
  | [], h => by
    cases h with
    | ins z => exact .inl ⟨[z], by simp, rfl⟩
    | del => exact .inr (.inl rfl)
    | rep _ z => exact .inr (.inr (.inl ⟨z, rfl⟩))
    | swap _ q => exact .inr (.inr (.inr (.inr (.inl ⟨q, _, rfl, rfl⟩))))
    | skip _ h => exact .inr (.inr (.inr (.inr (.inr ⟨_, h, rfl⟩))))
  | w :: v, h => by
    generalize hg : w :: v ++ x :: b = g at h
    cases h with
    | ins z => exact .inl ⟨z :: w :: v, by simp, by rw [← hg]; rfl⟩
    | del _ => cases hg; exact .inl ⟨v, by simp; omega, rfl⟩
    | rep _ z => cases hg; exact .inl ⟨z :: v, by simp, rfl⟩
    | swap _ q =>
      cases v with
      | nil => cases hg; exact .inr (.inr (.inr (.inl ⟨[], w, rfl, rfl⟩)))
      | cons w' v => cases hg; exact .inl ⟨q :: w :: v, by simp, rfl⟩
    | skip _ h =>
      cases hg
      rcases ed_around (v := v) h with ⟨v', h1, rfl⟩ | rfl | ⟨z, rfl⟩ | ⟨v', q, rfl, rfl⟩ | ⟨q, b', rfl, rfl⟩ | ⟨b₂, h1, rfl⟩
      · exact .inl ⟨w :: v', by simp; omega, rfl⟩
      · exact .inr (.inl rfl)
      · exact .inr (.inr (.inl ⟨z, rfl⟩))
      · exact .inr (.inr (.inr (.inl ⟨w :: v', q, rfl, rfl⟩)))
      · exact .inr (.inr (.inr (.inr (.inl ⟨q, b', rfl, rfl⟩))))
      · exact .inr (.inr (.inr (.inr (.inr ⟨b₂, h1, rfl⟩))))

/-- The second of two exchanged characters swapped with the next one. -/
theorem align_cross_swap {a b : List α} {n : Nat} {x y q : α} {u v : List α} (h : Align a (q :: b) n) :
    AlignLe (x :: (u ++ y :: a)) (y :: (v ++ q :: x :: b)) (n + u.length + v.length + 1 + 1) := by
  have k := align_head h
  clear h
  obtain ⟨d, a', n', rfl, rfl, h⟩ := k
  rcases h with ⟨a'', rfl, h⟩ | ⟨w, a'', m, rfl, rfl, h⟩ | ⟨m, rfl, h⟩ | ⟨x₂, u₂, v₂, a'', b'', m, rfl, rfl, rfl, h⟩
  · have h1 := align_insMany (align_delMany (.keep q (.ins x h)) d) v
    exact (Align.del x (align_delMany (.keep y h1) u)).le (by omega)
  · have h1 := Align.cross x y u (v ++ [q]) (align_delMany (.del w h) d)
    rw [List.append_assoc] at h1
    exact h1.le (by simp; omega)
  · have h1 := Align.cross x y u (v ++ [q]) (align_delMany h d)
    rw [List.append_assoc] at h1
    exact h1.le (by simp; omega)
  · have h1 := align_insMany (align_delMany (.cross x₂ q u₂ (x :: v₂) h) d) v
    exact (Align.del x (align_delMany (.keep y h1) u)).le (by simp; omega)

/-- One more typing mistake costs at most one more. -/
theorem align_step {a b : List α} {n : Nat} (h : Align a b n) : ∀ {c : List α}, Ed b c → AlignLe a c (n + 1) := by
  induction h with
  | nil => intro c e; cases e with | ins x => exact (Align.ins x .nil).le (by omega)
  | keep x h ih =>
    intro c e
    cases e with
    | ins z => exact (Align.ins z (.keep x h)).le (by omega)
    | del => exact (Align.del x h).le (by omega)
    | rep _ z => exact (Align.sub x z h).le (by omega)
    | swap _ z => exact align_keep_swap h
    | skip _ e => obtain ⟨m, hm, k⟩ := ih e; exact (Align.keep x k).le hm
  | sub x y h ih =>
    intro c e
    cases e with
    | ins z => exact (Align.ins z (.sub x y h)).le (by omega)
    | del => exact (Align.del x h).le (by omega)
    | rep _ z => exact (Align.sub x z h).le (by omega)
    | swap _ z =>
      obtain ⟨m, hm, k⟩ := ih (.skip z (.ins y))
      exact (Align.del x k).le (by omega)
    | skip _ e => obtain ⟨m, hm, k⟩ := ih e; exact (Align.sub x y k).le (by omega)
  | del x h ih =>
    intro c e
    obtain ⟨m, hm, k⟩ := ih e
    exact (Align.del x k).le (by omega)
  | ins y h ih =>
    intro c e
    cases e with
    | ins z => exact (Align.ins z (.ins y h)).le (by omega)
    | del => exact h.le (by omega)
    | rep _ z => exact (Align.ins z h).le (by omega)
    | swap _ z =>
      obtain ⟨m, hm, k⟩ := ih (.skip z (.ins y))
      exact k.le (by omega)
    | skip _ e => obtain ⟨m, hm, k⟩ := ih e; exact (Align.ins y k).le (by omega)
  | @cross a b n x y u v h ih =>
    intro c e
    generalize hg : y :: (v ++ x :: b) = g at e
    cases e with
    | ins z => subst hg; exact (Align.ins z (.cross x y u v h)).le (by omega)
    | del =>
      cases hg
      have h1 := align_insMany (.keep x (align_delMany (.del y h) u)) v
      exact h1.le (by omega)
    | rep _ z =>
      cases hg
      have h1 := align_insMany (.keep x (align_delMany (.del y h) u)) v
      exact (Align.ins z h1).le (by omega)
    | swap _ z =>
      cases v with
      | nil =>
        cases hg
        exact (Align.keep x (align_delMany (.keep y h) u)).le (by simp; omega)
      | cons w v =>
        cases hg
        exact (Align.ins z (.cross x y u v h)).le (by simp)
    | skip _ e =>
      cases hg
      rcases ed_around e with ⟨v', h1, rfl⟩ | rfl | ⟨z, rfl⟩ | ⟨v', w, rfl, rfl⟩ | ⟨q, b', rfl, rfl⟩ | ⟨b₂, h1, rfl⟩
      · exact (Align.cross x y u v' h).le (by omega)
      · exact (Align.del x (align_delMany (.keep y (align_insMany h v)) u)).le (by omega)
      · exact (Align.del x (align_delMany (.keep y (align_insMany (.ins z h) v)) u)).le (by omega)
      · exact (Align.cross x y u v' (.ins w h)).le (by simp; omega)
      · exact align_cross_swap h
      · obtain ⟨m, hm, k⟩ := ih h1
        exact (Align.cross x y u v k).le (by omega)

theorem align_of_edits {n : Nat} {a b : List α} (h : Edits n a b) : AlignLe a b n := by
  induction h with
  | none a => exact ⟨0, Nat.le_refl _, align_refl a⟩
  | more _ e ih =>
    obtain ⟨m, hm, k⟩ := ih
    obtain ⟨m', hm', k'⟩ := align_step k (ed_of_oneEdit e)
    exact ⟨m', by omega, k'⟩

theorem edits_cons {n : Nat} {a b : List α} (h : Edits n a b) (z : α) : Edits n (z :: a) (z :: b) := by
  induction h with
  | none a => exact .none _
  | more _ e ih => exact .more ih (oneEdit_cons e z)

theorem edits_trans {m n : Nat} {a b c : List α} (h : Edits m a b) (h' : Edits n b c) : Edits (m + n) a c := by
  induction h' with
  | none => exact h
  | more _ e ih => exact .more (ih h) e

theorem edits_del (z : α) : ∀ (u a : List α), Edits u.length (z :: (u ++ a)) (z :: a)
  | [], a => .none _
  | x :: u, a => by
    have h1 : Edits 1 (z :: (x :: u ++ a)) (z :: (u ++ a)) := .more (.none _) (.delete [z] (u ++ a) x)
    have h2 := edits_trans h1 (edits_del z u a)
    rwa [Nat.add_comm] at h2

theorem edits_ins (z : α) : ∀ (u a : List α), Edits u.length (z :: a) (z :: (u ++ a))
  | [], a => .none _
  | x :: u, a => .more (edits_ins z u a) (.insert [z] (u ++ a) x)

theorem edits_of_align {a b : List α} {n : Nat} (h : Align a b n) : Edits n a b := by
  induction h with
  | nil => exact .none _
  | keep x _ ih => exact edits_cons ih x
  | sub x y _ ih => exact .more (edits_cons ih x) (.replace [] _ x y)
  | @del a b n x h ih =>
    have h1 : Edits 1 (x :: a) a := .more (.none _) (.delete [] a x)
    have h2 := edits_trans h1 ih
    rwa [Nat.add_comm] at h2
  | ins y _ ih => exact .more ih (.insert [] _ y)
  | @cross a b n x y u v h ih =>
    have h1 := edits_del x u (y :: a)
    have h2 : Edits 1 (x :: y :: a) (y :: x :: a) := .more (.none _) (.swap [] a x y)
    have h3 := edits_cons (edits_cons ih x) y
    have h4 := edits_ins y v (x :: b)
    have h5 := edits_trans (edits_trans (edits_trans h1 h2) h3) h4
    have h6 : u.length + 1 + n + v.length = n + u.length + v.length + 1 := by omega
    rwa [h6] at h5

theorem oneEdit_reverse {a b : List α} (h : OneEdit a b) : OneEdit a.reverse b.reverse := by
  cases h with
  | insert u v x => simpa using OneEdit.insert v.reverse u.reverse x
  | delete u v x => simpa using OneEdit.delete v.reverse u.reverse x
  | replace u v x y => simpa using OneEdit.replace v.reverse u.reverse x y
  | swap u v x y => simpa using OneEdit.swap v.reverse u.reverse y x

theorem edits_reverse {n : Nat} {a b : List α} (h : Edits n a b) : Edits n a.reverse b.reverse := by
  induction h with
  | none a => exact .none _
  | more _ e ih => exact .more ih (oneEdit_reverse e)

end Qlc
