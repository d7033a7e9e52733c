import Verif.Model.Basic
/-
Lemmas about association lists, sorting, `seqE` and friends.
-/
set_option autoImplicit false

namespace Qlc

section
variable {K V : Type} [DecidableEq K]

theorem AMap.get?_insert (m : AMap K V) (k k' : K) (v : V) :
    AMap.get? (AMap.insert m k v) k' = if k = k' then some v else AMap.get? m k' := by
  induction m with
  | nil => simp [AMap.insert, AMap.get?]
  | cons e m ih =>
    obtain ⟨a, b⟩ := e
    simp only [AMap.insert]
    by_cases h : a = k
    · subst h
      by_cases h2 : a = k' <;> simp [AMap.get?, h2]
    · rw [if_neg h]
      simp only [AMap.get?, ih]
      by_cases h2 : a = k'
      · subst h2
        have : ¬ k = a := fun e => h e.symm
        simp [this]
      · simp [h2]

theorem AMap.keys_insert (m : AMap K V) (k : K) (v : V) :
    (AMap.insert m k v).keys = if k ∈ m.keys then m.keys else m.keys ++ [k] := by
  induction m with
  | nil => simp [AMap.insert, AMap.keys]
  | cons e m ih =>
    obtain ⟨a, b⟩ := e
    simp only [AMap.insert]
    by_cases h : a = k
    · subst h; simp [AMap.keys]
    · rw [if_neg h]
      simp only [AMap.keys] at ih ⊢
      simp only [List.map_cons, ih, List.mem_cons]
      have : ¬ k = a := fun e => h e.symm
      simp only [this, false_or]
      by_cases hm : k ∈ List.map Prod.fst m <;> simp only [hm, if_true, if_false, List.cons_append]

theorem AMap.mem_keys_insert (m : AMap K V) (k k' : K) (v : V) :
    k' ∈ (AMap.insert m k v).keys ↔ k' = k ∨ k' ∈ m.keys := by
  rw [AMap.keys_insert]; split
  · constructor
    · exact Or.inr
    · rintro (rfl | h) <;> assumption
  · simp [or_comm]

theorem AMap.nodup_keys_insert (m : AMap K V) (k : K) (v : V) (h : m.keys.Nodup) :
    (AMap.insert m k v).keys.Nodup := by
  rw [AMap.keys_insert]; split
  · exact h
  · rename_i hk
    rw [List.nodup_append]
    refine ⟨h, by simp, ?_⟩
    intro a ha b hb
    simp at hb; subst hb
    rintro rfl; exact hk ha

theorem AMap.get?_isSome (m : AMap K V) (k : K) :
    (AMap.get? m k).isSome ↔ k ∈ m.keys := by
  induction m with
  | nil => simp [AMap.get?, AMap.keys]
  | cons e m ih =>
    obtain ⟨a, b⟩ := e
    simp only [AMap.get?, AMap.keys, List.map_cons, List.mem_cons] at ih ⊢
    by_cases h : a = k
    · simp [h]
    · have : ¬ k = a := fun e => h e.symm
      simp [h, ih, this]

theorem AMap.get?_eq_none (m : AMap K V) (k : K) :
    AMap.get? m k = none ↔ k ∉ m.keys := by
  rw [← AMap.get?_isSome]; cases AMap.get? m k <;> simp

theorem AMap.mem_of_get? {m : AMap K V} {k : K} {v : V} (h : AMap.get? m k = some v) :
    (k, v) ∈ m := by
  induction m with
  | nil => simp [AMap.get?] at h
  | cons e m ih =>
    obtain ⟨a, b⟩ := e
    simp only [AMap.get?] at h
    by_cases hk : a = k
    · simp [hk] at h; simp [hk, h]
    · simp [hk] at h; exact List.mem_cons_of_mem _ (ih h)

theorem AMap.get?_of_mem {m : AMap K V} {k : K} {v : V} (hn : m.keys.Nodup) (h : (k, v) ∈ m) :
    AMap.get? m k = some v := by
  induction m with
  | nil => simp at h
  | cons e m ih =>
    obtain ⟨a, b⟩ := e
    simp only [AMap.keys, List.map_cons, List.nodup_cons] at hn
    simp only [AMap.get?]
    rcases List.mem_cons.1 h with h | h
    · injection h with h1 h2; simp [h1, h2]
    · have : a ≠ k := by
        rintro rfl; exact hn.1 (List.mem_map.2 ⟨_, h, rfl⟩)
      simp [this, ih hn.2 h]

theorem mem_setInsert (s : List K) (x y : K) : y ∈ setInsert s x ↔ y ∈ s ∨ y = x := by
  unfold setInsert; split
  · constructor
    · exact Or.inl
    · rintro (h | rfl) <;> assumption
  · simp

theorem nodup_setInsert (s : List K) (x : K) (h : s.Nodup) : (setInsert s x).Nodup := by
  unfold setInsert; split
  · exact h
  · rename_i hx
    rw [List.nodup_append]
    refine ⟨h, by simp, ?_⟩
    intro a ha b hb
    simp at hb; subst hb
    rintro rfl; exact hx ha

theorem mem_foldl_setInsert (l s : List K) (y : K) :
    y ∈ l.foldl setInsert s ↔ y ∈ s ∨ y ∈ l := by
  induction l generalizing s with
  | nil => simp
  | cons a l ih => simp [ih, mem_setInsert, or_assoc]

theorem nodup_foldl_setInsert (l s : List K) (h : s.Nodup) : (l.foldl setInsert s).Nodup := by
  induction l generalizing s with
  | nil => exact h
  | cons a l ih => exact ih _ (nodup_setInsert _ _ h)

theorem foldl_setInsert_of_nodup (l s : List K) (h : (s ++ l).Nodup) :
    l.foldl setInsert s = s ++ l := by
  induction l generalizing s with
  | nil => simp
  | cons a l ih =>
    have ha : a ∉ s := by
      rw [List.nodup_append] at h
      intro hs; exact h.2.2 a hs a (by simp) rfl
    have : setInsert s a = s ++ [a] := by simp [setInsert, ha]
    simp only [List.foldl_cons, this]
    rw [ih]
    · simp
    · simpa using h
end

theorem seqE_ok_iff {ε α : Type} (l : List (Except ε α)) (as : List α) :
    seqE l = .ok as ↔ l = as.map .ok := by
  induction l generalizing as with
  | nil => cases as <;> simp [seqE]
  | cons a l ih =>
    cases a with
    | error e => cases as <;> simp [seqE]
    | ok a =>
      simp only [seqE]
      cases h : seqE l with
      | error e =>
        constructor
        · intro h'; simp at h'
        · intro h'
          cases as with
          | nil => simp at h'
          | cons b bs =>
            simp at h'
            have := (ih bs).2 h'.2
            rw [h] at this; simp at this
      | ok bs =>
        have hb := (ih bs).1 h
        constructor
        · intro h'; injection h' with h'; subst h'; simp [hb]
        · intro h'
          cases as with
          | nil => simp at h'
          | cons c cs =>
            simp at h'
            have := (ih cs).2 h'.2
            rw [h] at this
            injection this with this
            rw [this, h'.1]

theorem seqE_error_iff {ε α : Type} (l : List (Except ε α)) (e : ε) :
    seqE l = .error e ↔ ∃ (as : List α) (rest : List (Except ε α)), l = as.map .ok ++ .error e :: rest := by
  induction l with
  | nil => simp [seqE]
  | cons a l ih =>
    cases a with
    | error e' =>
      simp only [seqE]
      constructor
      · intro h; injection h with h; exact ⟨[], l, by simp [h]⟩
      · rintro ⟨as, rest, h⟩
        cases as with
        | nil => simp at h; simp [h.1]
        | cons b bs => simp at h
    | ok a =>
      simp only [seqE]
      constructor
      · intro h
        cases h' : seqE l with
        | ok bs => simp [h'] at h
        | error e' =>
          simp only [h'] at h
          injection h with h; subst h
          obtain ⟨as, rest, hr⟩ := ih.1 h'
          exact ⟨a :: as, rest, by simp [hr]⟩
      · rintro ⟨as, rest, h⟩
        cases as with
        | nil => simp at h
        | cons b bs =>
          simp at h
          rw [ih.2 ⟨bs, rest, h.2⟩]

/-! ### Sorting -/

section
variable {α : Type}

theorem insertBy_perm (key : α → String) (x : α) (l : List α) : (insertBy key x l).Perm (x :: l) := by
  induction l with
  | nil => exact List.Perm.refl _
  | cons y ys ih =>
    simp only [insertBy]; split
    · exact List.Perm.refl _
    · exact (List.Perm.cons y ih).trans (List.Perm.swap _ _ _)

theorem sortBy_perm (key : α → String) (l : List α) : (sortBy key l).Perm l := by
  induction l with
  | nil => exact List.Perm.refl _
  | cons x xs ih => exact (insertBy_perm key x _).trans (List.Perm.cons x ih)

/-- Sortedness by key. -/
def SortedBy (key : α → String) (l : List α) : Prop := l.Pairwise (fun a b => key a ≤ key b)

theorem str_le_trans {a b c : String} (h1 : a ≤ b) (h2 : b ≤ c) : a ≤ c := String.le_trans h1 h2
theorem str_le_total (a b : String) : a ≤ b ∨ b ≤ a := String.le_total a b
theorem str_le_antisymm {a b : String} (h1 : a ≤ b) (h2 : b ≤ a) : a = b := String.le_antisymm h1 h2

theorem insertBy_sorted (key : α → String) (x : α) (l : List α) (h : SortedBy key l) :
    SortedBy key (insertBy key x l) := by
  induction l with
  | nil => simp [insertBy, SortedBy]
  | cons y ys ih =>
    simp only [SortedBy, List.pairwise_cons] at h ih ⊢
    simp only [insertBy]; split
    · rename_i hle
      simp only [List.pairwise_cons]
      refine ⟨?_, h⟩
      intro a ha
      rcases List.mem_cons.1 ha with rfl | ha
      · exact hle
      · exact str_le_trans hle (h.1 a ha)
    · rename_i hle
      simp only [List.pairwise_cons]
      refine ⟨?_, ih h.2⟩
      intro a ha
      rcases List.mem_cons.1 ((insertBy_perm key x ys).mem_iff.1 ha) with rfl | ha
      · rcases str_le_total (key a) (key y) with h' | h'
        · exact absurd h' hle
        · exact h'
      · exact h.1 a ha

theorem sortBy_sorted (key : α → String) (l : List α) : SortedBy key (sortBy key l) := by
  induction l with
  | nil => simp [sortBy, SortedBy]
  | cons x xs ih => exact insertBy_sorted key x _ ih

/-- A list sorted by keys that are pairwise distinct is determined by its elements. -/
theorem sorted_unique (key : α → String) {l₁ l₂ : List α} (hp : l₁.Perm l₂)
    (h1 : SortedBy key l₁) (h2 : SortedBy key l₂) (hn : (l₁.map key).Nodup) : l₁ = l₂ := by
  refine List.Perm.eq_of_pairwise (le := fun a b => key a ≤ key b) ?_ h1 h2 hp
  intro a b ha hb hab hba
  have hk := str_le_antisymm hab hba
  have hb' := hp.symm.mem_iff.1 hb
  clear hp h1 h2 hab hba hb
  induction l₁ with
  | nil => simp at ha
  | cons c l ih =>
    simp only [List.map_cons, List.nodup_cons, List.mem_map, not_exists, not_and] at hn
    rcases List.mem_cons.1 ha with ha1 | ha1 <;> rcases List.mem_cons.1 hb' with hb1 | hb1
    · rw [ha1, hb1]
    · exact absurd (ha1 ▸ hk.symm) (hn.1 b hb1)
    · exact absurd (hb1 ▸ hk) (hn.1 a ha1)
    · exact ih hn.2 ha1 hb1

theorem sortBy_eq_of_perm (key : α → String) {l₁ l₂ : List α} (hp : l₁.Perm l₂)
    (hn : (l₁.map key).Nodup) : sortBy key l₁ = sortBy key l₂ := by
  apply sorted_unique key
  · exact ((sortBy_perm key l₁).trans hp).trans (sortBy_perm key l₂).symm
  · exact sortBy_sorted _ _
  · exact sortBy_sorted _ _
  · exact ((sortBy_perm key l₁).map key).nodup_iff.2 hn

/-- Sorting strings forgets the order entirely. -/
theorem sortStr_eq_of_perm {l₁ l₂ : List String} (hp : l₁.Perm l₂) : sortStr l₁ = sortStr l₂ := by
  refine List.Perm.eq_of_pairwise (le := fun (a b : String) => a ≤ b) ?_
    (sortBy_sorted id l₁) (sortBy_sorted id l₂)
    (((sortBy_perm id l₁).trans hp).trans (sortBy_perm id l₂).symm)
  intro a b _ _ hab hba
  exact str_le_antisymm hab hba
end

end Qlc
