import Verif.Spec.Text
import Mathlib.Tactic.Cases
/-
The line splitting and trimming of the model agree with the specification.
-/
set_option autoImplicit false

namespace Qlc
open Spec

theorem splitNl_ne_nil (cs : List Char) : splitNl cs ≠ [] := by
  cases cs with
  | nil => simp [splitNl]
  | cons c cs =>
    unfold splitNl
    split
    · simp
    · split <;> simp

theorem splitNl_nl {l : List Char} (h : '\n' ∉ l) (rest : List Char) :
    splitNl (l ++ '\n' :: rest) = l :: splitNl rest := by
  induction l with
  | nil => simp [splitNl]
  | cons c l ih =>
    simp only [List.mem_cons, not_or] at h
    rw [List.cons_append, splitNl, if_neg (fun e => h.1 e.symm), ih h.2]

theorem splitNl_none {l : List Char} (h : '\n' ∉ l) : splitNl l = [l] := by
  induction l with
  | nil => rfl
  | cons c l ih =>
    simp only [List.mem_cons, not_or] at h
    rw [splitNl, if_neg (fun e => h.1 e.symm), ih h.2]

theorem linesC_nil : linesC [] = [] := rfl

theorem linesC_last {l : List Char} (h0 : l ≠ []) (h : '\n' ∉ l) : linesC l = [l] := by
  unfold linesC
  rw [splitNl_none h]
  simp [h0]

theorem linesC_nl {l : List Char} (h : '\n' ∉ l) (rest : List Char) :
    linesC (l ++ '\n' :: rest) = stripCr l :: linesC rest := by
  unfold linesC
  rw [splitNl_nl h]
  have hn := splitNl_ne_nil rest
  cases hs : splitNl rest with
  | nil => exact absurd hs hn
  | cons a as =>
    simp only [List.getLast?_cons_cons, List.dropLast_cons₂, List.map_cons]
    split <;> simp

theorem linesC_eq {cs : List Char} {ls : List (List Char)} (h : IsLines cs ls) : linesC cs = ls := by
  induction h with
  | nil => rfl
  | last h0 h => exact linesC_last h0 h
  | @lf l rest ls h hr _ ih =>
    rw [linesC_nl h, ih]
    have : l.getLast? ≠ some '\r' := by
      intro e
      rw [List.getLast?_eq_some_iff] at e
      obtain ⟨ys, e⟩ := e
      exact hr ys e
    simp [stripCr, this]
  | @crlf l rest ls h _ ih =>
    have hn : '\n' ∉ l ++ ['\r'] := by
      simp only [List.mem_append, List.mem_singleton, not_or]
      exact ⟨h, by decide⟩
    have e : l ++ '\r' :: '\n' :: rest = (l ++ ['\r']) ++ '\n' :: rest := by simp
    rw [e, linesC_nl hn, ih]
    simp [stripCr]

theorem isLines_append {l rest : List Char} {ls : List (List Char)} (h : '\n' ∉ l) (hr : IsLines rest ls) :
    ∃ l', IsLines (l ++ '\n' :: rest) (l' :: ls) := by
  by_cases hc : ∃ l', l = l' ++ ['\r']
  · obtain ⟨l', rfl⟩ := hc
    refine ⟨l', ?_⟩
    have : '\n' ∉ l' := fun e => h (by simp [e])
    simpa using IsLines.crlf this hr
  · exact ⟨l, .lf h (fun l' e => hc ⟨l', e⟩) hr⟩

theorem isLines_exists (n : Nat) : ∀ cs : List Char, cs.length ≤ n → ∃ ls, IsLines cs ls := by
  induction n with
  | zero =>
    intro cs h
    have := List.eq_nil_of_length_eq_zero (Nat.le_zero.1 h)
    subst this
    exact ⟨[], .nil⟩
  | succ n ih =>
    intro cs h
    by_cases hm : '\n' ∈ cs
    · obtain ⟨l, rest, e, hl⟩ := List.eq_append_cons_of_mem hm
      subst e
      simp only [List.length_append, List.length_cons] at h
      obtain ⟨ls, hls⟩ := ih rest (by omega)
      obtain ⟨l', hl'⟩ := isLines_append hl hls
      exact ⟨_, hl'⟩
    · by_cases h0 : cs = []
      · subst h0
        exact ⟨[], .nil⟩
      · exact ⟨[cs], .last h0 hm⟩

/-- `str::lines` yields the lines of the text. -/
theorem isLines_iff (cs : List Char) (ls : List (List Char)) : IsLines cs ls ↔ ls = linesC cs := by
  constructor
  · exact fun h => (linesC_eq h).symm
  · rintro rfl
    obtain ⟨ls, h⟩ := isLines_exists cs.length cs (Nat.le_refl _)
    rw [linesC_eq h]
    exact h

theorem isLines_lines (cs : List Char) : IsLines cs (linesC cs) := (isLines_iff _ _).2 rfl

/-! ### White space -/

theorem isWs_iff (c : Char) : isWs c = true ↔ IsSpace c := by
  unfold isWs IsSpace whiteSpace
  simp only [Bool.or_eq_true, Bool.and_eq_true, decide_eq_true_eq, beq_iff_eq, List.mem_cons,
    List.not_mem_nil, or_false]
  omega

theorem blank_iff (l : List Char) : Blank l ↔ ∀ c ∈ l, isWs c = true := by
  unfold Blank
  exact ⟨fun h c hc => (isWs_iff c).2 (h c hc), fun h c hc => (isWs_iff c).1 (h c hc)⟩

theorem mem_takeWhile_of {α : Type} {p : α → Bool} {l : List α} {a : α} (h : a ∈ l.takeWhile p) :
    p a = true := by
  induction l with
  | nil => simp at h
  | cons b l ih =>
    rw [List.takeWhile_cons] at h
    split at h
    · rename_i hb
      rcases List.mem_cons.1 h with rfl | h
      · exact hb
      · exact ih h
    · simp at h

theorem dropWhile_head_of {α : Type} {p : α → Bool} {l : List α} {a : α} {r : List α}
    (h : l.dropWhile p = a :: r) : p a = false := by
  induction l with
  | nil => simp at h
  | cons b l ih =>
    rw [List.dropWhile_cons] at h
    split at h
    · exact ih h
    · rename_i hb
      injection h with h1 h2
      subst h1; simpa using hb

theorem trimmed_trimC (l : List Char) : Trimmed l (trimC l) := by
  have e1 : l = l.takeWhile isWs ++ l.dropWhile isWs := List.takeWhile_append_dropWhile.symm
  have e2 : l.dropWhile isWs = trimC l ++ ((l.dropWhile isWs).reverse.takeWhile isWs).reverse := by
    unfold trimC
    rw [← List.reverse_append, List.takeWhile_append_dropWhile, List.reverse_reverse]
  refine ⟨⟨l.takeWhile isWs, ((l.dropWhile isWs).reverse.takeWhile isWs).reverse, ?_, ?_, ?_⟩, ?_, ?_⟩
  · rw [List.append_assoc, ← e2, ← e1]
  · exact (blank_iff _).2 (fun c hc => mem_takeWhile_of hc)
  · exact (blank_iff _).2 (fun c hc => mem_takeWhile_of (List.mem_reverse.1 hc))
  · intro c r hr
    rw [hr] at e2
    rw [← isWs_iff]
    have := dropWhile_head_of (p := isWs) (l := l) (a := c) (r := _) (by rw [e2]; rfl)
    simp [this]
  · intro c r hr
    unfold trimC at hr
    have hr' := congrArg List.reverse hr
    simp only [List.reverse_reverse, List.reverse_append, List.reverse_cons, List.reverse_nil,
      List.nil_append, List.singleton_append] at hr'
    rw [← isWs_iff]
    have := dropWhile_head_of hr'
    simp [this]

theorem trimmed_unique {l t t' : List Char} (h : Trimmed l t) (h' : Trimmed l t') : t = t' := by
  obtain ⟨⟨a, b, e, ha, hb⟩, h1, h2⟩ := h
  obtain ⟨⟨a', b', e', ha', hb'⟩, h1', h2'⟩ := h'
  have key : ∀ (a a' t t' b b' : List Char), a ++ t ++ b = a' ++ t' ++ b' → Blank a → Blank b →
      Blank a' → Blank b' → (∀ c r, t = c :: r → ¬ IsSpace c) → (∀ c r, t = r ++ [c] → ¬ IsSpace c) →
      (∀ c r, t' = c :: r → ¬ IsSpace c) → (∀ c r, t' = r ++ [c] → ¬ IsSpace c) → t = t' := by
    have blankCase : ∀ (a a' t t' b b' : List Char), a ++ t ++ b = a' ++ t' ++ b' → Blank a → Blank b →
        t = [] → (∀ c r, t' = c :: r → ¬ IsSpace c) → t' = [] := by
      intro a a' t t' b b' e ha hb ht h
      subst ht
      cases t' with
      | nil => rfl
      | cons c r =>
        exfalso
        have : c ∈ a ++ [] ++ b := by rw [e]; simp
        simp only [List.append_nil, List.mem_append] at this
        exact h c r rfl (this.elim (ha c) (hb c))
    intro a
    induction a with
    | nil =>
      intro a' t t' b b' e _ hb ha' hb' h1 h2 h1' h2'
      by_cases ht : t = []
      · rw [ht, blankCase [] a' t t' b b' e (by simp [Blank]) hb ht h1']
      by_cases ht' : t' = []
      · exact absurd (blankCase a' [] t' t b' b e.symm ha' hb' ht' h1) ht
      cases a' with
      | cons c a' =>
        exfalso
        cases t with
        | nil => exact ht rfl
        | cons d t =>
          simp only [List.nil_append, List.cons_append, List.cons.injEq] at e
          exact h1 d t rfl (by rw [e.1]; exact ha' c (by simp))
      | nil =>
        simp only [List.nil_append] at e
        -- now compare the ends
        have rev := congrArg List.reverse e
        simp only [List.reverse_append] at rev
        have ends : ∀ (x x' y y' : List Char), x ++ y = x' ++ y' → Blank x → Blank x' →
            (∀ c r, y = c :: r → ¬ IsSpace c) → (∀ c r, y' = c :: r → ¬ IsSpace c) → y ≠ [] → y' ≠ [] →
            y = y' := by
          intro x
          induction x with
          | nil =>
            intro x' y y' e _ hx' hy hy' n n'
            cases x' with
            | nil => simpa using e
            | cons c x' =>
              exfalso
              cases y with
              | nil => exact n rfl
              | cons d y =>
                simp only [List.nil_append, List.cons_append, List.cons.injEq] at e
                exact hy d y rfl (by rw [e.1]; exact hx' c (by simp))
          | cons c x ih =>
            intro x' y y' e hx hx' hy hy' n n'
            cases x' with
            | nil =>
              exfalso
              cases y' with
              | nil => exact n' rfl
              | cons d y' =>
                simp only [List.nil_append, List.cons_append, List.cons.injEq] at e
                exact hy' d y' rfl (by rw [← e.1]; exact hx c (by simp))
            | cons d x' =>
              simp only [List.cons_append, List.cons.injEq] at e
              exact ih x' y y' e.2 (fun c hc => hx c (by simp [hc])) (fun c hc => hx' c (by simp [hc]))
                hy hy' n n'
        have := ends b.reverse b'.reverse t.reverse t'.reverse rev
          (fun c hc => hb c (by simpa using hc)) (fun c hc => hb' c (by simpa using hc))
          (fun c r hr => h2 c r.reverse (by
            have := congrArg List.reverse hr
            simpa using this))
          (fun c r hr => h2' c r.reverse (by
            have := congrArg List.reverse hr
            simpa using this))
          (by simpa using ht) (by simpa using ht')
        simpa using this
    | cons c a ih =>
      intro a' t t' b b' e ha hb ha' hb' h1 h2 h1' h2'
      cases a' with
      | nil =>
        by_cases ht' : t' = []
        · rw [ht', blankCase [] (c :: a) t' t b' b e.symm (by simp [Blank]) hb' ht' h1]
        · exfalso
          cases t' with
          | nil => exact ht' rfl
          | cons d t' =>
            simp only [List.nil_append, List.cons_append, List.cons.injEq] at e
            exact h1' d t' rfl (by rw [← e.1]; exact ha c (by simp))
      | cons d a' =>
        simp only [List.cons_append, List.cons.injEq] at e
        exact ih a' t t' b b' e.2 (fun c hc => ha c (by simp [hc])) hb (fun c hc => ha' c (by simp [hc]))
          hb' h1 h2 h1' h2'
  exact key a a' t t' b b' (by rw [← e, ← e']) ha hb ha' hb' h1 h2 h1' h2'

theorem trimmed_iff (l t : List Char) : Trimmed l t ↔ t = trimC l :=
  ⟨fun h => trimmed_unique h (trimmed_trimC l), fun h => h ▸ trimmed_trimC l⟩

theorem trimC_nil_iff (l : List Char) : trimC l = [] ↔ Blank l := by
  constructor
  · intro h
    obtain ⟨⟨a, b, e, ha, hb⟩, _⟩ := trimmed_trimC l
    rw [h] at e
    rw [e]
    intro c hc
    simp only [List.append_nil, List.mem_append] at hc
    exact hc.elim (ha c) (hb c)
  · intro h
    exact ((trimmed_iff l []).1 ⟨⟨l, [], by simp, h, by simp [Blank]⟩, by simp, by simp⟩).symm

theorem tidied_iff (ls ts : List (List Char)) :
    Tidied ls ts ↔ ts = (ls.map trimC).filter (fun l => !l.isEmpty) := by
  induction ls generalizing ts with
  | nil =>
    constructor
    · intro h; cases h; rfl
    · intro h; rw [h]; exact .nil
  | cons l ls ih =>
    rw [List.map_cons, List.filter_cons (x := trimC l)]
    by_cases hb : Blank l
    · rw [(trimC_nil_iff l).2 hb]
      simp only [List.isEmpty_nil, Bool.not_true, Bool.false_eq_true, if_false]
      rw [← ih]
      constructor
      · intro h
        cases h with
        | blank _ h => exact h
        | line hn _ _ => exact absurd hb hn
      · exact .blank hb
    · have hn : trimC l ≠ [] := fun e => hb ((trimC_nil_iff l).1 e)
      have : (!(trimC l).isEmpty) = true := by simp [hn]
      rw [if_pos this]
      constructor
      · intro h
        cases h with
        | blank hb' _ => exact absurd hb' hb
        | line _ ht h => rw [(trimmed_iff _ _).1 ht, (ih _).1 h]
      · rintro rfl
        exact .line hb (trimmed_trimC l) ((ih _).2 rfl)

theorem joinWith_nl (ls : List (List Char)) :
    (joinWith "\n" (ls.map String.ofList)).toList = joinLines ls := by
  unfold joinLines
  induction ls with
  | nil => rfl
  | cons l ls ih =>
    cases ls with
    | nil => simp [joinWith, List.intercalate]
    | cons m ls =>
      simp only [List.map_cons, joinWith, String.toList_append, String.toList_ofList] at ih ⊢
      rw [ih]
      simp [List.intercalate]

end Qlc
