import Verif.Model.DistanceVec
import Mathlib.Tactic.Linarith
/-
The vector represents the table; no index is out of range and no subtraction negative (C136).
-/
set_option autoImplicit false

namespace Qlc

/-- The vector holds the table. -/
structure VecRep (W H : Nat) (l : List Nat) (T : DistTable) : Prop where
  len : l.length = W * H
  at' : ∀ r c, r < H → c < W → l[r * W + c]? = some (T r c)

theorem cell_lt {W H r c : Nat} (hr : r < H) (hc : c < W) : r * W + c < W * H := by
  have h1 : (r + 1) * W ≤ H * W := Nat.mul_le_mul_right W hr
  rw [Nat.add_mul, Nat.one_mul, Nat.mul_comm H W] at h1
  omega

theorem cell_inj {W r c r' c' : Nat} (hc : c < W) (hc' : c' < W) (h : r * W + c = r' * W + c') : r = r' ∧ c = c' := by
  have hW : 0 < W := by omega
  have h1 : (r * W + c) / W = r := by
    rw [Nat.mul_comm, Nat.mul_add_div hW, Nat.div_eq_of_lt hc, Nat.add_zero]
  have h2 : (r' * W + c') / W = r' := by
    rw [Nat.mul_comm, Nat.mul_add_div hW, Nat.div_eq_of_lt hc', Nat.add_zero]
  have h3 : r = r' := by rw [← h1, h, h2]
  subst h3
  exact ⟨rfl, by omega⟩

theorem vecRep_get {W H : Nat} {l : List Nat} {T : DistTable} (h : VecRep W H l T) {r c i : Nat} (hr : r < H) (hc : c < W)
    (hi : i = r * W + c) : vecGet l i = some (T r c) := by
  subst hi
  exact h.at' r c hr hc

theorem vecRep_set {W H : Nat} {l : List Nat} {T : DistTable} (h : VecRep W H l T) {r c i : Nat} (v : Nat) (hr : r < H)
    (hc : c < W) (hi : i = r * W + c) : ∃ l', vecSet l i v = some l' ∧ VecRep W H l' (T.set r c v) := by
  subst hi
  have hlt : r * W + c < l.length := by rw [h.len]; exact cell_lt hr hc
  refine ⟨l.set (r * W + c) v, by rw [vecSet, if_pos hlt], by rw [List.length_set, h.len], fun r' c' hr' hc' => ?_⟩
  rw [List.getElem?_set]
  simp only [DistTable.set]
  by_cases he : r' = r ∧ c' = c
  · obtain ⟨rfl, rfl⟩ := he
    rw [if_pos rfl, if_pos hlt, if_pos ⟨rfl, rfl⟩]
  · rw [if_neg he, if_neg (fun hh => he ?_), h.at' r' c' hr' hc']
    have := cell_inj hc hc' hh
    exact ⟨this.1.symm, this.2.symm⟩

theorem vecRep_congr {W H : Nat} {l : List Nat} {T T' : DistTable} (h : VecRep W H l T)
    (he : ∀ r c, r < H → c < W → T r c = T' r c) : VecRep W H l T' :=
  ⟨h.len, fun r c hr hc => by rw [h.at' r c hr hc, he r c hr hc]⟩

/-- The table after so many rounds of the first loop. -/
def topTable (max i : Nat) : DistTable := fun r c =>
  if r = 0 ∧ c ≤ i then max else if r = 1 ∧ 1 ≤ c ∧ c ≤ i then c - 1 else 0

theorem vecTop_spec {W H max : Nat} (hH : 2 ≤ H) : ∀ (n i : Nat) (l : List Nat), i + n + 1 = W → VecRep W H l (topTable max i) →
    ∃ l', vecTop W max n i l = some l' ∧ VecRep W H l' (topTable max (i + n))
  | 0, i, l, _, h => ⟨l, rfl, h⟩
  | n + 1, i, l, hW, h => by
    obtain ⟨l₁, e₁, h₁⟩ := vecRep_set h (r := 0) (c := i + 1) (i := i + 1) max (by omega) (by omega) (by omega)
    obtain ⟨l₂, e₂, h₂⟩ := vecRep_set h₁ (r := 1) (c := i + 1) (i := i + 1 + W) i (by omega) (by omega) (by omega)
    obtain ⟨l₃, e₃, h₃⟩ := vecTop_spec (max := max) hH n (i + 1) l₂ (by omega) (vecRep_congr h₂ (by
      intro r c _ _
      simp only [DistTable.set, topTable]
      split_ifs <;> omega))
    refine ⟨l₃, ?_, by rwa [show i + (n + 1) = i + 1 + n by omega]⟩
    simp only [vecTop, e₁, e₂, Option.bind_eq_bind, Option.bind_some]
    exact e₃

/-- The table after so many rounds of the second loop. -/
def leftTable (max j : Nat) : DistTable := fun r c =>
  if r = 0 then max else if r ≤ j ∧ c = 0 then max else if r ≤ j ∧ c = 1 then r - 1 else if r = 1 then c - 1 else 0

theorem vecLeft_spec {W H max : Nat} (hW : 2 ≤ W) : ∀ (n j : Nat) (l : List Nat), j + n + 1 = H →
    VecRep W H l (leftTable max j) → ∃ l', vecLeft W max n j l = some l' ∧ VecRep W H l' (leftTable max (j + n))
  | 0, j, l, _, h => ⟨l, rfl, h⟩
  | n + 1, j, l, hH, h => by
    obtain ⟨l₁, e₁, h₁⟩ := vecRep_set h (r := j + 1) (c := 0) (i := (j + 1) * W) max (by omega) (by omega) (by omega)
    obtain ⟨l₂, e₂, h₂⟩ := vecRep_set h₁ (r := j + 1) (c := 1) (i := (j + 1) * W + 1) j (by omega) (by omega) (by omega)
    obtain ⟨l₃, e₃, h₃⟩ := vecLeft_spec (max := max) hW n (j + 1) l₂ (by omega) (vecRep_congr h₂ (by
      intro r c _ _
      simp only [DistTable.set, leftTable]
      split_ifs <;> omega))
    refine ⟨l₃, ?_, by rwa [show j + (n + 1) = j + 1 + n by omega]⟩
    simp only [vecLeft, e₁, e₂, Option.bind_eq_bind, Option.bind_some]
    exact e₃

variable {α : Type} [DecidableEq α]

theorem vecRow_spec {W H i : Nat} {x : α} {elems : α → Nat} (hi : i + 1 < W) (he : ∀ y, elems y < i) :
    ∀ (rest : List α) (j db : Nat) (l : List Nat) (T : DistTable), j + rest.length + 1 = H → db < j → VecRep W H l T →
      ∃ l', vecRow W i x elems rest j db l = some l' ∧ VecRep W H l' (distRow i x elems rest j db T)
  | [], j, db, l, T, _, _, h => ⟨l, rfl, h⟩
  | y :: rest, j, db, l, T, hH, hdb, h => by
    simp only [List.length_cons] at hH
    have hk := he y
    have g1 := vecRep_get h (r := j) (c := i + 1) (i := j * W + i + 1) (by omega) hi (by omega)
    have g2 := vecRep_get h (r := j + 1) (c := i) (i := (j + 1) * W + i) (by omega) (by omega) rfl
    have g3 := vecRep_get h (r := db) (c := elems y) (i := db * W + elems y) (by omega) (by omega) rfl
    have g4 := vecRep_get h (r := j) (c := i) (i := j * W + i) (by omega) (by omega) rfl
    have s1 : usizeSub i (elems y) = some (i - elems y) := by rw [usizeSub, if_pos (by omega)]
    have s2 : usizeSub (i - elems y) 1 = some (i - elems y - 1) := by rw [usizeSub, if_pos (by omega)]
    have s3 : usizeSub j db = some (j - db) := by rw [usizeSub, if_pos (by omega)]
    have s4 : usizeSub (j - db) 1 = some (j - db - 1) := by rw [usizeSub, if_pos (by omega)]
    have s5 : (if x = y then usizeSub (T j i + 1) 1 else some (T j i + 1)) =
        some (if x = y then T j i else T j i + 1) := by
      split
      · rw [usizeSub, if_pos (by omega), Nat.add_sub_cancel]
      · rfl
    obtain ⟨l₁, e₁, h₁⟩ := vecRep_set h (r := j + 1) (c := i + 1) (i := (j + 1) * W + i + 1)
      (min (if x = y then T j i else T j i + 1) (min (T j (i + 1) + 1) (min (T (j + 1) i + 1)
        (T db (elems y) + (i - elems y - 1) + 1 + (j - db - 1))))) (by omega) hi (by omega)
    obtain ⟨l₂, e₂, h₂⟩ := vecRow_spec hi he rest (j + 1) (if x = y then j else db) l₁ _ (by omega)
      (by split <;> omega) h₁
    refine ⟨l₂, ?_, h₂⟩
    simp only [vecRow, g1, g2, g3, g4, s1, s2, s3, s4, Option.bind_eq_bind, Option.bind_some]
    by_cases hxy : x = y
    · simp only [if_pos hxy] at s5 e₁ e₂ ⊢
      simp only [s5, Option.bind_some, e₁, e₂]
    · simp only [if_neg hxy] at e₁ e₂ ⊢
      simp only [Option.bind_some, e₁, e₂]

theorem vecRows_spec {W H : Nat} {b : List α} (hb : b.length + 2 = H) : ∀ (rest : List α) (i : Nat) (elems : α → Nat) (l : List Nat)
    (T : DistTable), i + rest.length + 1 = W → (∀ y, elems y < i) → VecRep W H l T →
      ∃ l', vecRows W b rest i elems l = some l' ∧ VecRep W H l' (distRows b rest i elems T)
  | [], i, elems, l, T, _, _, h => ⟨l, rfl, h⟩
  | x :: rest, i, elems, l, T, hW, he, h => by
    simp only [List.length_cons] at hW
    obtain ⟨l₁, e₁, h₁⟩ := vecRow_spec (x := x) (by omega) he b 1 0 l T (by omega) (by omega) h
    obtain ⟨l₂, e₂, h₂⟩ := vecRows_spec hb rest (i + 1) (fun y => if y = x then i else elems y) l₁ _ (by omega) (by
      intro y
      have := he y
      split <;> omega) h₁
    refine ⟨l₂, ?_, h₂⟩
    simp only [vecRows, e₁, Option.bind_eq_bind, Option.bind_some]
    exact e₂

/-- The algorithm never panics, and computes what the table says. -/
theorem damerauVec_eq (a b : List α) : damerauVec a b = some (damerau a b) := by
  unfold damerauVec damerau
  split
  · rfl
  · split
    · rfl
    · have h0 : VecRep (a.length + 2) (b.length + 2) (List.replicate ((a.length + 2) * (b.length + 2)) 0) (fun _ _ => 0) := by
        refine ⟨by simp, fun r c hr hc => ?_⟩
        rw [List.getElem?_replicate, if_pos (cell_lt hr hc)]
      obtain ⟨l₁, e₁, h₁⟩ := vecRep_set h0 (r := 0) (c := 0) (i := 0) (a.length + b.length) (by omega) (by omega) (by omega)
      obtain ⟨l₂, e₂, h₂⟩ := vecTop_spec (max := a.length + b.length) (by omega) (a.length + 1) 0 l₁ (by omega)
        (vecRep_congr h₁ (by
          intro r c _ _
          simp only [DistTable.set, topTable]
          split_ifs <;> omega))
      obtain ⟨l₃, e₃, h₃⟩ := vecLeft_spec (max := a.length + b.length) (by omega) (b.length + 1) 0 l₂ (by omega)
        (vecRep_congr h₂ (by
          intro r c _ _
          simp only [leftTable, topTable]
          split_ifs <;> omega))
      obtain ⟨l₄, e₄, h₄⟩ := vecRows_spec (b := b) rfl a 1 (fun _ => 0) l₃ (DistTable.start (a.length + b.length)) (by omega)
        (by intro; omega) (vecRep_congr h₃ (by
          intro r c _ _
          simp only [leftTable, DistTable.start]
          split_ifs <;> omega))
      simp only [e₁, e₂, e₃, e₄, Option.bind_eq_bind, Option.bind_some]
      exact vecRep_get h₄ (by omega) (by omega) (by omega)

end Qlc
