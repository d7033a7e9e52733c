import Verif.Model.Distance
import Verif.Lemmas.Distance
/-
The table holds the least cost of an alignment (C136).
-/
set_option autoImplicit false

namespace Qlc
open Spec

variable {α : Type}

/-- The least cost of an alignment. -/
def Best (a b : List α) (t : Nat) : Prop := Align a b t ∧ ∀ n, Align a b n → t ≤ n

theorem best_unique {a b : List α} {t t' : Nat} (h : Best a b t) (h' : Best a b t') : t = t' :=
  Nat.le_antisymm (h.2 _ h'.1) (h'.2 _ h.1)

theorem align_nil_right {a : List α} {b : List α} {n : Nat} (h : Align a b n) (hb : b = []) : a.length ≤ n := by
  induction h with
  | nil => simp
  | del x _ ih => have := ih hb; simp; omega
  | keep => cases hb
  | sub => cases hb
  | ins => cases hb
  | cross => cases hb

theorem align_nil_left {a : List α} {b : List α} {n : Nat} (h : Align a b n) (ha : a = []) : b.length ≤ n := by
  induction h with
  | nil => simp
  | ins x _ ih => have := ih ha; simp; omega
  | keep => cases ha
  | sub => cases ha
  | del => cases ha
  | cross => cases ha

theorem best_nil_right (a : List α) : Best a [] a.length := by
  refine ⟨?_, fun n h => align_nil_right h rfl⟩
  have := align_delMany (.nil : Align ([] : List α) [] 0) a
  simpa using this

theorem best_nil_left (b : List α) : Best [] b b.length := by
  refine ⟨?_, fun n h => align_nil_left h rfl⟩
  have := align_insMany (.nil : Align ([] : List α) [] 0) b
  simpa using this

theorem best_le {a b : List α} {t : Nat} (h : Best a b t) : t ≤ a.length + b.length := by
  have h1 := align_insMany (align_delMany (.nil : Align ([] : List α) [] 0) a) b
  have := h.2 _ (by simpa using h1)
  omega

/-- The last place of an element: 0 if it does not occur in the text (given backwards), otherwise its number. -/
def LastPlace (y : α) (A : List α) (k : Nat) : Prop :=
  (k = 0 ∧ y ∉ A) ∨ ∃ u a, A = u ++ y :: a ∧ y ∉ u ∧ k = a.length + 1

/-- Any other place is farther away. -/
theorem lastPlace_first {y : α} : ∀ {u u' a a' : List α}, y ∉ u → u ++ y :: a = u' ++ y :: a' →
    ∃ w, u' ++ [y] = u ++ [y] ++ w ∧ a = w ++ a'
  | [], [], a, a', _, h => ⟨[], by simp, by simpa using h⟩
  | [], z :: u', a, a', _, h => by
    simp only [List.nil_append, List.cons_append, List.cons.injEq] at h
    obtain ⟨rfl, rfl⟩ := h
    exact ⟨u' ++ [y], by simp, by simp⟩
  | z :: u, [], a, a', hu, h => by
    simp only [List.nil_append, List.cons_append, List.cons.injEq] at h
    obtain ⟨rfl, _⟩ := h
    simp at hu
  | z :: u, z' :: u', a, a', hu, h => by
    simp only [List.cons_append, List.cons.injEq] at h
    obtain ⟨rfl, h⟩ := h
    obtain ⟨w, h1, h2⟩ := lastPlace_first (fun hm => hu (List.mem_cons_of_mem _ hm)) h
    exact ⟨w, by simp only [List.cons_append, List.append_assoc] at h1 ⊢; rw [h1], h2⟩

variable [DecidableEq α]

/-- One cell of the table. -/
theorem best_cell {A B : List α} {x y : α} {s i d c M k db : Nat} (hM : A.length + B.length + 2 ≤ M)
    (hs : Best A B s) (hi : Best (x :: A) B i) (hd : Best A (y :: B) d)
    (hk : LastPlace y A k) (hdb : LastPlace x B db)
    (hc : (k = 0 ∨ db = 0) ∧ c = M ∨
      ∃ u a v b, A = u ++ y :: a ∧ y ∉ u ∧ B = v ++ x :: b ∧ x ∉ v ∧ k = a.length + 1 ∧ db = b.length + 1 ∧ Best a b c) :
    Best (x :: A) (y :: B) (min (if x = y then s else s + 1)
      (min (i + 1) (min (d + 1) (c + (A.length + 1 - k - 1) + 1 + (B.length + 1 - db - 1))))) := by
  have hsub : Align (x :: A) (y :: B) (if x = y then s else s + 1) := by
    split
    · next h => subst h; exact .keep x hs.1
    · exact .sub x y hs.1
  have hle := best_le hs
  have hsle : (if x = y then s else s + 1) ≤ s + 1 := by split <;> omega
  generalize hg : (if x = y then s else s + 1) = s' at hsub hsle
  constructor
  · rcases Nat.le_total s' (min (i + 1) (min (d + 1) (c + (A.length + 1 - k - 1) + 1 + (B.length + 1 - db - 1)))) with h | h
    · rw [Nat.min_eq_left h]; exact hsub
    · rw [Nat.min_eq_right h]
      rcases Nat.le_total (i + 1) (min (d + 1) (c + (A.length + 1 - k - 1) + 1 + (B.length + 1 - db - 1))) with h1 | h1
      · rw [Nat.min_eq_left h1]; exact .ins y hi.1
      · rw [Nat.min_eq_right h1]
        rw [Nat.min_eq_right h1] at h
        rcases Nat.le_total (d + 1) (c + (A.length + 1 - k - 1) + 1 + (B.length + 1 - db - 1)) with h2 | h2
        · rw [Nat.min_eq_left h2]; exact .del x hd.1
        · rw [Nat.min_eq_right h2]
          rw [Nat.min_eq_right h2] at h
          rcases hc with ⟨_, rfl⟩ | ⟨u, a, v, b, rfl, _, rfl, _, rfl, rfl, hc⟩
          · omega
          · refine (Align.cross x y u v hc.1).cast ?_
            simp; omega
  · intro n h
    have key : s' ≤ n ∨ i + 1 ≤ n ∨ d + 1 ≤ n ∨ c + (A.length + 1 - k - 1) + 1 + (B.length + 1 - db - 1) ≤ n := by
      generalize hA : x :: A = A' at h
      generalize hB : y :: B = B' at h
      cases h with
      | nil => cases hA
      | keep z h =>
        cases hA; cases hB
        rw [if_pos rfl] at hg
        subst hg
        exact .inl (hs.2 _ h)
      | sub z z' h =>
        cases hA; cases hB
        have := hs.2 _ h
        exact .inl (by omega)
      | del z h =>
        cases hA; subst hB
        have := hd.2 _ h
        exact .inr (.inr (.inl (by omega)))
      | ins z h =>
        cases hB; subst hA
        have := hi.2 _ h
        exact .inr (.inl (by omega))
      | @cross a' b' m x' y' u' v' h =>
        simp only [List.cons.injEq] at hA hB
        obtain ⟨rfl, hA⟩ := hA
        obtain ⟨rfl, hB⟩ := hB
        refine .inr (.inr (.inr ?_))
        have hyA : y ∈ A := by rw [hA]; simp
        have hxB : x ∈ B := by rw [hB]; simp
        rcases hc with ⟨h0, _⟩ | ⟨u, a, v, b, rfl, hu, rfl, hv, rfl, rfl, hc⟩
        · rcases h0 with rfl | rfl
          · rcases hk with ⟨_, hk⟩ | ⟨_, _, _, _, hk⟩
            · exact absurd hyA hk
            · omega
          · rcases hdb with ⟨_, hk⟩ | ⟨_, _, _, _, hk⟩
            · exact absurd hxB hk
            · omega
        · obtain ⟨w, e1, rfl⟩ := lastPlace_first hu hA
          obtain ⟨w', e2, rfl⟩ := lastPlace_first hv hB
          have h1 := align_insMany (align_delMany h w) w'
          have h2 := hc.2 _ h1
          have e1 := congrArg List.length e1
          have e2 := congrArg List.length e2
          simp at e1 e2 ⊢
          omega
    rcases key with h | h | h | h
    · exact Nat.le_trans (Nat.min_le_left _ _) h
    · exact Nat.le_trans (Nat.min_le_right _ _) (Nat.le_trans (Nat.min_le_left _ _) h)
    · exact Nat.le_trans (Nat.min_le_right _ _) (Nat.le_trans (Nat.min_le_right _ _) (Nat.le_trans (Nat.min_le_left _ _) h))
    · exact Nat.le_trans (Nat.min_le_right _ _) (Nat.le_trans (Nat.min_le_right _ _) (Nat.le_trans (Nat.min_le_right _ _) h))

/-- What the table holds when the part `A` of the first text (backwards) is done; `Bs` is the second text, backwards. -/
structure TableDone (M : Nat) (Bs A : List α) (T : DistTable) : Prop where
  row0 : ∀ c, T 0 c = M
  col0 : ∀ r, T r 0 = M
  row1 : ∀ c, T 1 (c + 1) = c
  done : ∀ A₁ B₁, A₁ <:+ A → B₁ <:+ Bs → Best A₁ B₁ (T (B₁.length + 1) (A₁.length + 1))

theorem distRow_spec {M : Nat} {Bs A : List α} {x : α} {elems : α → Nat} (hM : A.length + 1 + Bs.length ≤ M)
    (he : ∀ y, LastPlace y A (elems y)) :
    ∀ (rest : List α) (B : List α) (db : Nat) (T : DistTable), rest.reverse ++ B = Bs → LastPlace x B db →
      TableDone M Bs A T → (∀ B₁, B₁ <:+ B → Best (x :: A) B₁ (T (B₁.length + 1) (A.length + 1 + 1))) →
      TableDone M Bs (x :: A) (distRow (A.length + 1) x elems rest (B.length + 1) db T)
  | [], B, db, T, hB, _, hT, hx => by
    rw [List.reverse_nil, List.nil_append] at hB
    subst hB
    refine ⟨hT.row0, hT.col0, hT.row1, fun A₁ B₁ hA hB => ?_⟩
    rcases List.suffix_cons_iff.1 hA with rfl | hA
    · exact hx B₁ hB
    · exact hT.done A₁ B₁ hA hB
  | y :: rest, B, db, T, hB, hdb, hT, hx => by
    have hB' : rest.reverse ++ (y :: B) = Bs := by rw [← hB]; simp
    have hyB : y :: B <:+ Bs := ⟨_, hB'⟩
    have hBs : B <:+ Bs := (List.suffix_cons y B).trans hyB
    have hlen : B.length + 1 ≤ Bs.length := by simpa using hyB.length_le
    have hcell : Best (x :: A) (y :: B) (min (if x = y then T (B.length + 1) (A.length + 1) else T (B.length + 1) (A.length + 1) + 1)
        (min (T (B.length + 1) (A.length + 1 + 1) + 1) (min (T (B.length + 1 + 1) (A.length + 1) + 1)
          (T db (elems y) + (A.length + 1 - elems y - 1) + 1 + (B.length + 1 - db - 1))))) := by
      refine best_cell (M := M) (by omega) (hT.done A B List.suffix_rfl hBs) (hx B List.suffix_rfl)
        (hT.done A (y :: B) List.suffix_rfl hyB) (he y) hdb ?_
      rcases he y with ⟨h0, _⟩ | ⟨u, a, h1, h2, h3⟩
      · exact .inl ⟨.inl h0, by rw [h0]; exact hT.col0 _⟩
      · rcases hdb with ⟨h0, _⟩ | ⟨v, b, h4, h5, h6⟩
        · exact .inl ⟨.inr h0, by rw [h0]; exact hT.row0 _⟩
        · refine .inr ⟨u, a, v, b, h1, h2, h4, h5, h3, h6, ?_⟩
          rw [h3, h6]
          refine hT.done a b ⟨u ++ [y], by rw [h1]; simp⟩ (List.IsSuffix.trans ⟨v ++ [x], by rw [h4]; simp⟩ hBs)
    have hne : ∀ A₁ : List α, A₁ <:+ A → A₁.length + 1 ≠ A.length + 1 + 1 := by
      intro A₁ h
      have := h.length_le
      omega
    simp only [distRow]
    refine distRow_spec hM he rest (y :: B) (if x = y then B.length + 1 else db) _ hB' ?_ ⟨?_, ?_, ?_, ?_⟩ ?_
    · split
      · next h => subst h; exact .inr ⟨[], B, rfl, by simp, rfl⟩
      · next h =>
        rcases hdb with ⟨h1, h2⟩ | ⟨v, b, h1, h2, h3⟩
        · exact .inl ⟨h1, by simp [h2, h]⟩
        · exact .inr ⟨y :: v, b, by rw [h1]; rfl, by simp [h2, h], h3⟩
    · intro c
      simp only [DistTable.set]
      rw [if_neg (by omega)]
      exact hT.row0 c
    · intro r
      simp only [DistTable.set]
      rw [if_neg (by omega)]
      exact hT.col0 r
    · intro c
      simp only [DistTable.set]
      rw [if_neg (by omega)]
      exact hT.row1 c
    · intro A₁ B₁ hA hB
      simp only [DistTable.set]
      rw [if_neg (fun h => hne A₁ hA h.2)]
      exact hT.done A₁ B₁ hA hB
    · intro B₁ h
      rcases List.suffix_cons_iff.1 h with rfl | h
      · simp only [DistTable.set, List.length_cons]
        rw [if_pos ⟨trivial, trivial⟩]
        exact hcell
      · have := h.length_le
        simp only [DistTable.set]
        rw [if_neg (by omega)]
        exact hx B₁ h

theorem distRows_spec {M : Nat} {b : List α} : ∀ (rest A : List α) (elems : α → Nat) (T : DistTable),
    A.length + rest.length + b.length ≤ M → (∀ y, LastPlace y A (elems y)) → TableDone M b.reverse A T →
    TableDone M b.reverse (rest.reverse ++ A) (distRows b rest (A.length + 1) elems T)
  | [], A, elems, T, _, _, hT => hT
  | x :: rest, A, elems, T, hM, he, hT => by
    have h1 := distRow_spec (x := x) (M := M) (Bs := b.reverse) (by simp at hM ⊢; omega) he b [] 0 T (by simp)
      (.inl ⟨rfl, by simp⟩) hT (by
        intro B₁ h
        have h2 : B₁ = [] := List.suffix_nil.1 h
        subst h2
        rw [show T (([] : List α).length + 1) (A.length + 1 + 1) = (x :: A).length from hT.row1 _]
        exact best_nil_right _)
    have h2 := distRows_spec rest (x :: A) (fun y => if y = x then A.length + 1 else elems y) _
      (by simp at hM ⊢; omega) (by
        intro y
        split
        · next h => subst h; exact .inr ⟨[], A, rfl, by simp, rfl⟩
        · next h =>
          rcases he y with ⟨h1, h2⟩ | ⟨u, a, h1, h2, h3⟩
          · exact .inl ⟨h1, by simp [h2, h]⟩
          · exact .inr ⟨x :: u, a, by rw [h1]; rfl, by simp [h2, h], h3⟩) h1
    simpa [distRows] using h2

omit [DecidableEq α] in
theorem start_done (M : Nat) (Bs : List α) : TableDone M Bs [] (DistTable.start M) := by
  refine ⟨fun c => by simp [DistTable.start], fun r => by simp [DistTable.start], ?_, ?_⟩
  · intro c
    rcases c with _ | c
    · simp [DistTable.start]
    · simp [DistTable.start]
  · intro A₁ B₁ hA _
    have h : A₁ = [] := List.suffix_nil.1 hA
    subst h
    have h2 : DistTable.start M (B₁.length + 1) (([] : List α).length + 1) = B₁.length := by
      simp [DistTable.start]
    rw [h2]
    exact best_nil_left _

/-- The distance is the least number of typing mistakes. -/
theorem damerau_least (a b : List α) : Edits (damerau a b) a b ∧ ∀ n, Edits n a b → damerau a b ≤ n := by
  have key : Best a.reverse b.reverse (damerau a b) := by
    unfold damerau
    split
    · next h =>
      have : a = [] := List.eq_nil_of_length_eq_zero h
      subst this
      simpa using best_nil_left b.reverse
    · split
      · next h =>
        have : b = [] := List.eq_nil_of_length_eq_zero h
        subst this
        simpa using best_nil_right a.reverse
      · have h1 := distRows_spec (M := a.length + b.length) (b := b) a [] (fun _ => 0)
          (DistTable.start (a.length + b.length)) (by simp) (fun y => .inl ⟨rfl, by simp⟩) (start_done _ _)
        have h2 := h1.done a.reverse b.reverse (by simp) List.suffix_rfl
        simpa using h2
  constructor
  · simpa using edits_reverse (edits_of_align key.1)
  · intro n h
    obtain ⟨m, hm, k⟩ := align_of_edits (edits_reverse h)
    exact Nat.le_trans (key.2 m k) hm

omit [DecidableEq α] in
/-- Alignments of texts written differently. -/
theorem align_map_inv {β : Type} {f : β → α} {A B : List α} {n : Nat} (h : Align A B n) : ∀ (a b : List β),
    A = a.map f → B = b.map f → (∀ x ∈ a, ∀ y ∈ b, f x = f y → x = y) → Align a b n := by
  induction h with
  | nil =>
    intro a b ha hb _
    have := List.map_eq_nil_iff.1 ha.symm
    have := List.map_eq_nil_iff.1 hb.symm
    subst a b
    exact .nil
  | keep x h ih =>
    intro a b ha hb hf
    obtain ⟨p, a, rfl, hp, ha'⟩ := List.map_eq_cons_iff.1 ha.symm
    obtain ⟨q, b, rfl, hq, hb'⟩ := List.map_eq_cons_iff.1 hb.symm
    have : p = q := hf p (by simp) q (by simp) (by rw [hp, hq])
    subst this
    exact .keep p (ih a b ha'.symm hb'.symm fun x hx y hy => hf x (by simp [hx]) y (by simp [hy]))
  | sub x y h ih =>
    intro a b ha hb hf
    obtain ⟨p, a, rfl, hp, ha⟩ := List.map_eq_cons_iff.1 ha.symm
    obtain ⟨q, b, rfl, hq, hb⟩ := List.map_eq_cons_iff.1 hb.symm
    exact .sub p q (ih a b ha.symm hb.symm fun x hx y hy => hf x (by simp [hx]) y (by simp [hy]))
  | del x h ih =>
    intro a b ha hb hf
    obtain ⟨p, a, rfl, hp, ha⟩ := List.map_eq_cons_iff.1 ha.symm
    exact .del p (ih a b ha.symm hb fun x hx y hy => hf x (by simp [hx]) y hy)
  | ins y h ih =>
    intro a b ha hb hf
    obtain ⟨q, b, rfl, hq, hb⟩ := List.map_eq_cons_iff.1 hb.symm
    exact .ins q (ih a b ha hb.symm fun x hx y hy => hf x hx y (by simp [hy]))
  | cross x y u v h ih =>
    intro a b ha hb hf
    obtain ⟨p, a, rfl, hp, ha₁⟩ := List.map_eq_cons_iff.1 ha.symm
    obtain ⟨u', a, rfl, hu, ha₂⟩ := List.map_eq_append_iff.1 ha₁
    obtain ⟨p', a, rfl, hp', ha₃⟩ := List.map_eq_cons_iff.1 ha₂
    obtain ⟨q, b, rfl, hq, hb₁⟩ := List.map_eq_cons_iff.1 hb.symm
    obtain ⟨v', b, rfl, hv, hb₂⟩ := List.map_eq_append_iff.1 hb₁
    obtain ⟨q', b, rfl, hq', hb₃⟩ := List.map_eq_cons_iff.1 hb₂
    have e1 : p = q' := hf p (by simp) q' (by simp) (by rw [hp, hq'])
    have e2 : p' = q := hf p' (by simp) q (by simp) (by rw [hp', hq])
    subst e1 e2
    have := Align.cross p p' u' v' (ih a b ha₃.symm hb₃.symm fun x hx y hy => hf x (by simp [hx]) y (by simp [hy]))
    rw [← hu, ← hv, List.length_map, List.length_map]
    exact this

omit [DecidableEq α] in
theorem oneEdit_map {β : Type} (f : β → α) {a b : List β} (h : OneEdit a b) : OneEdit (a.map f) (b.map f) := by
  cases h with
  | insert u v x => simpa using OneEdit.insert (u.map f) (v.map f) (f x)
  | delete u v x => simpa using OneEdit.delete (u.map f) (v.map f) (f x)
  | replace u v x y => simpa using OneEdit.replace (u.map f) (v.map f) (f x) (f y)
  | swap u v x y => simpa using OneEdit.swap (u.map f) (v.map f) (f x) (f y)

omit [DecidableEq α] in
theorem edits_map {β : Type} (f : β → α) {n : Nat} {a b : List β} (h : Edits n a b) : Edits n (a.map f) (b.map f) := by
  induction h with
  | none => exact .none _
  | more _ e ih => exact .more ih (oneEdit_map f e)

/-- The distance does not depend on how the characters are written. -/
theorem damerau_map {β : Type} [DecidableEq β] {f : β → α} {a b : List β} (hf : ∀ x ∈ a, ∀ y ∈ b, f x = f y → x = y) :
    damerau (a.map f) (b.map f) = damerau a b := by
  apply Nat.le_antisymm
  · exact (damerau_least _ _).2 _ (edits_map f (damerau_least a b).1)
  · obtain ⟨m, hm, k⟩ := align_of_edits (damerau_least (a.map f) (b.map f)).1
    exact Nat.le_trans ((damerau_least a b).2 _ (edits_of_align (align_map_inv k a b rfl rfl hf))) hm

end Qlc
