import Verif.Model.RawPath
import Verif.Props.Modules
/-
The operations on texts of paths (`Model/RawPath.lean`) act on components as those of `Path` do.
-/
set_option autoImplicit false

namespace Qlc

/-- A component that counts. -/
def goodSeg (c : List Char) : Bool := decide (c ≠ [] ∧ c ≠ ['.'])

/-- The components of a text, without a leading `.`. -/
def segs (t : List Char) : List (List Char) := (splitSlash t).filter goodSeg

theorem segs_append (a b : List Char) : segs (a ++ '/' :: b) = segs a ++ segs b := by
  unfold segs
  rw [splitSlash_append, List.filter_append]

theorem segs_nil : segs [] = [] := rfl

theorem segs_slash (t : List Char) : segs ('/' :: t) = segs t := by
  have := segs_append [] t
  simpa [segs_nil] using this

theorem segs_one {c : List Char} (h : '/' ∉ c) (hg : goodSeg c = true) : segs c = [c] := by
  simp [segs, splitSlash_noSlash h, hg]

theorem segs_bad {c : List Char} (h : '/' ∉ c) (hg : goodSeg c = false) : segs c = [] := by
  simp [segs, splitSlash_noSlash h, hg]

theorem ofList_eq_dot {c : List Char} : String.ofList c = "." ↔ c = ['.'] := by
  constructor
  · intro h
    have := congrArg String.toList h
    simpa using this
  · rintro rfl
    rfl

theorem splitSlash_head (c : Char) (cs : List Char) (hc : c ≠ '/') :
    ∃ l ls, splitSlash (c :: cs) = (c :: l) :: ls ∧ (c :: l = ['.'] ↔ rawCurDir (c :: cs) = true) := by
  simp only [splitSlash, hc, if_false]
  cases hs : splitSlash cs with
  | nil => exact absurd hs (splitSlash_ne_nil cs)
  | cons l ls =>
    refine ⟨l, ls, rfl, ?_⟩
    cases cs with
    | nil =>
      simp [splitSlash] at hs
      obtain ⟨rfl, rfl⟩ := hs
      constructor
      · intro h
        simp only [List.cons.injEq, and_true] at h
        rw [h]; rfl
      · intro h
        unfold rawCurDir at h
        split at h
        · rename_i h'; rw [h']
        · rename_i h'; simp at h'
        · cases h
    | cons d cs =>
      by_cases hd : d = '/'
      · subst hd
        simp [splitSlash] at hs
        obtain ⟨rfl, rfl⟩ := hs
        constructor
        · intro h
          simp only [List.cons.injEq, and_true] at h
          rw [h]; rfl
        · intro h
          unfold rawCurDir at h
          split at h
          · rename_i h'; simp at h'
          · rename_i h'
            simp only [List.cons.injEq] at h'
            rw [h'.1]
          · cases h
      · constructor
        · intro h
          simp only [List.cons.injEq] at h
          rw [h.2] at hs
          simp only [splitSlash, hd, if_false] at hs
          split at hs <;> simp at hs
        · intro h
          unfold rawCurDir at h
          split at h
          · rename_i h'; simp at h'
          · rename_i h'
            simp only [List.cons.injEq] at h'
            exact absurd h'.2.1 hd
          · cases h

/-- The components of a text. -/
theorem ofChars_segs (t : List Char) :
    Path.ofChars t = ⟨rawAbs t, (if rawCurDir t then ["."] else []) ++ (segs t).map String.ofList⟩ := by
  have hfil : ∀ ls : List (List Char),
      ((ls.filter (fun c => !c.isEmpty)).map String.ofList).filter (fun c => decide (c ≠ ".")) =
        (ls.filter goodSeg).map String.ofList := by
    intro ls
    induction ls with
    | nil => rfl
    | cons c ls ih =>
      cases c with
      | nil => simpa [goodSeg] using ih
      | cons a c =>
        by_cases h : a :: c = ['.']
        · simp only [h]
          simpa [goodSeg] using ih
        · have h' : String.ofList (a :: c) ≠ "." := fun e => h (ofList_eq_dot.1 e)
          have hg : goodSeg (a :: c) = true := decide_eq_true ⟨by simp, h⟩
          simp only [List.filter_cons, List.isEmpty_cons, Bool.not_false, if_true, List.map_cons, h', ne_eq,
            not_false_eq_true, decide_true, hg, ih]
  cases t with
  | nil => rfl
  | cons c cs =>
    by_cases hc : c = '/'
    · subst hc
      unfold Path.ofChars
      have hcd : rawCurDir ('/' :: cs) = false := by
        unfold rawCurDir
        split <;> simp_all
      simp only [List.head?_cons, decide_true, Bool.true_eq_false, false_and, if_false, hfil, rawAbs, hcd,
        Bool.false_eq_true, List.nil_append]
      rfl
    · obtain ⟨l, ls, h1, h2⟩ := splitSlash_head c cs hc
      have hab : rawAbs (c :: cs) = false := by simp [rawAbs, hc]
      unfold Path.ofChars segs
      rw [h1, hab]
      have hab' : decide ((c :: cs).head? = some '/') = false := hab
      simp only [hab']
      by_cases hd : c :: l = ['.']
      · rw [h2.1 hd, hd]
        simp only [List.filter_cons, List.isEmpty_cons, Bool.not_false, if_true, List.map_cons, List.head?_cons,
          true_and, List.tail_cons]
        have e : goodSeg ['.'] = false := rfl
        rw [hfil, e]
        rfl
      · have hcd : rawCurDir (c :: cs) = false := by
          cases h : rawCurDir (c :: cs) with
          | false => rfl
          | true => exact absurd (h2.2 h) hd
        have hd' : ¬ (String.ofList (c :: l) = ".") := fun e => hd (ofList_eq_dot.1 e)
        rw [hcd, if_neg (by simpa [List.filter_cons] using hd'), hfil]
        rfl

theorem segs_good {t c : List Char} (h : c ∈ segs t) : c ≠ [] ∧ c ≠ ['.'] := by
  have := (List.mem_filter.1 h).2
  simpa [goodSeg] using this

theorem map_segs_no_dot (t : List Char) : "." ∉ (segs t).map String.ofList := by
  intro h
  obtain ⟨c, hc, e⟩ := List.mem_map.1 h
  exact (segs_good hc).2 (ofList_eq_dot.1 e)

/-- The components of the second path of a join. -/
theorem tail_comps (b : List Char) :
    (let comps := (if rawCurDir b then ["."] else []) ++ (segs b).map String.ofList
     if comps.head? = some "." then comps.tail else comps) = (segs b).map String.ofList := by
  cases h : rawCurDir b with
  | true => simp
  | false =>
    simp only [Bool.false_eq_true, if_false, List.nil_append]
    split
    · rename_i h'
      exact absurd (List.mem_of_mem_head? h') (map_segs_no_dot b)
    · rfl

theorem nonempty_comps {a : List Char} (h : a ≠ []) :
    rawAbs a = true ∨ rawCurDir a = true ∨ segs a ≠ [] := by
  cases a with
  | nil => exact absurd rfl h
  | cons c cs =>
    by_cases hc : c = '/'
    · exact .inl (by simp [rawAbs, hc])
    · obtain ⟨l, ls, h1, h2⟩ := splitSlash_head c cs hc
      by_cases hd : c :: l = ['.']
      · exact .inr (.inl (h2.1 hd))
      · right; right
        unfold segs
        rw [h1]
        have hg : goodSeg (c :: l) = true := decide_eq_true ⟨by simp, hd⟩
        simp [hg]

theorem rawAbs_append {a : List Char} (h : a ≠ []) (b : List Char) : rawAbs (a ++ b) = rawAbs a := by
  cases a with
  | nil => exact absurd rfl h
  | cons c cs => rfl

theorem rawCurDir_cons (c : Char) (cs : List Char) :
    rawCurDir (c :: cs) = decide (c = '.' ∧ (cs = [] ∨ cs.head? = some '/')) := by
  cases cs with
  | nil =>
    by_cases h : c = '.'
    · subst h; rfl
    · unfold rawCurDir
      split <;> simp_all
  | cons d ds =>
    by_cases h : c = '.'
    · subst h
      by_cases hd : d = '/'
      · subst hd; simp [rawCurDir]
      · unfold rawCurDir
        split <;> simp_all
    · unfold rawCurDir
      split <;> simp_all

theorem rawCurDir_append_slash {a : List Char} (h : a ≠ []) (b : List Char) :
    rawCurDir (a ++ '/' :: b) = rawCurDir a := by
  cases a with
  | nil => exact absurd rfl h
  | cons c cs =>
    simp only [List.cons_append, rawCurDir_cons]
    cases cs <;> simp

theorem rawCurDir_abs {a : List Char} (h : rawAbs a = true) : rawCurDir a = false := by
  cases a with
  | nil => rfl
  | cons c cs =>
    simp only [rawAbs, List.head?_cons, Option.some.injEq, decide_eq_true_eq] at h
    rw [rawCurDir_cons, h]
    simp

/-- `join` on texts is `join` on components. -/
theorem ofChars_join (a b : List Char) : Path.ofChars (rawJoin a b) = (Path.ofChars a).join (Path.ofChars b) := by
  unfold rawJoin
  have habs : (Path.ofChars b).abs = rawAbs b := by rw [ofChars_segs]
  cases hb : rawAbs b with
  | true =>
    rw [if_pos rfl]
    unfold Path.join
    rw [habs, hb, if_pos rfl]
  | false =>
    simp only [Bool.false_eq_true, if_false]
    by_cases ha : a = []
    · subst ha
      simp only [true_or, if_true, List.nil_append]
      unfold Path.join
      rw [habs, hb]
      rfl
    · have hj : (Path.ofChars a).join (Path.ofChars b) =
          ⟨rawAbs a, (if rawCurDir a then ["."] else []) ++ (segs a).map String.ofList ++
            (segs b).map String.ofList⟩ := by
        unfold Path.join
        rw [habs, hb, ofChars_segs a, ofChars_segs b]
        simp only [Bool.false_eq_true, if_false]
        rw [if_pos]
        · rw [tail_comps b]
        · rcases nonempty_comps ha with h | h | h
          · simp [h]
          · simp [h]
          · simp [h]
      rw [hj]
      by_cases hl : a.getLast? = some '/'
      · rw [if_pos (.inr hl)]
        obtain ⟨a', rfl⟩ : ∃ a', a = a' ++ ['/'] := by
          refine ⟨a.dropLast, ?_⟩
          rw [List.getLast?_eq_some_getLast ha] at hl
          simp only [Option.some.injEq] at hl
          rw [← hl]
          exact (List.dropLast_append_getLast ha).symm
        rw [ofChars_segs]
        have e : a' ++ ['/'] ++ b = a' ++ '/' :: b := by simp
        rw [e, segs_append, segs_append, segs_nil, List.append_nil, List.map_append]
        by_cases ha' : a' = []
        · subst ha'
          simp [rawAbs, rawCurDir_cons]
        · rw [rawAbs_append ha', rawAbs_append ha', rawCurDir_append_slash ha', rawCurDir_append_slash ha',
            List.append_assoc]
      · rw [if_neg (by simp [ha, hl]), ofChars_segs, segs_append, rawAbs_append ha, rawCurDir_append_slash ha,
          List.map_append, List.append_assoc]

/-! ### The end of a text -/

theorem lastComp_noSlash (r : List Char) : '/' ∉ (lastComp r).reverse := by
  intro h
  have := List.all_takeWhile (p := (· ≠ '/')) (l := r)
  have := List.all_eq_true.1 this _ (List.mem_reverse.1 h)
  simp at this

theorem rev_parts (r : List Char) :
    r.reverse = (lastComp r).reverse ∧ beforeComp r = [] ∧ r.dropWhile (· ≠ '/') = [] ∨
    r.reverse = (beforeComp r).reverse ++ '/' :: (lastComp r).reverse ∧
      r.dropWhile (· ≠ '/') = '/' :: beforeComp r := by
  have h := List.takeWhile_append_dropWhile (p := (· ≠ '/')) (l := r)
  unfold lastComp beforeComp
  cases hd : r.dropWhile (· ≠ '/') with
  | nil =>
    left
    rw [hd, List.append_nil] at h
    refine ⟨by rw [h], rfl, rfl⟩
  | cons c r' =>
    right
    have hc : c = '/' := by
      have := List.head_dropWhile_not (p := (· ≠ '/')) (l := r) (w := by rw [hd]; simp)
      simp only [hd, List.head_cons] at this
      simpa using this
    subst hc
    refine ⟨?_, rfl⟩
    rw [hd] at h
    conv => lhs; rw [← h]
    simp

theorem segs_rev (r : List Char) :
    segs r.reverse = segs (beforeComp r).reverse ++ segs (lastComp r).reverse := by
  rcases rev_parts r with ⟨h1, h2, _⟩ | ⟨h1, _⟩
  · rw [h2, List.reverse_nil, segs_nil, List.nil_append, ← h1]
  · rw [h1, segs_append]

theorem trimBack_segs : ∀ (n : Nat) (r : List Char), r.length ≤ n → segs (trimBack r).reverse = segs r.reverse
  | 0, r, h => by
    have : r = [] := List.eq_nil_of_length_eq_zero (by omega)
    subst this
    rw [trimBack]
  | n + 1, r, h => by
    cases r with
    | nil => rw [trimBack]
    | cons c r =>
      rw [trimBack]
      split
      · rename_i hl
        have hlen := beforeComp_length c r
        rw [trimBack_segs n _ (by omega), segs_rev (c :: r)]
        rw [segs_bad (lastComp_noSlash _), List.append_nil]
        rcases hl with hl | hl <;> rw [hl] <;> rfl
      · rfl

theorem trimBack_good : ∀ (n : Nat) (r : List Char), r.length ≤ n → trimBack r ≠ [] →
    goodSeg (lastComp (trimBack r)).reverse = true
  | 0, r, h, h' => by
    have : r = [] := List.eq_nil_of_length_eq_zero (by omega)
    subst this
    rw [trimBack] at h'
    exact absurd rfl h'
  | n + 1, r, h, h' => by
    cases r with
    | nil => rw [trimBack] at h'; exact absurd rfl h'
    | cons c r =>
      rw [trimBack] at h' ⊢
      split
      · rename_i hl
        rw [if_pos hl] at h'
        have hlen := beforeComp_length c r
        exact trimBack_good n _ (by omega) h'
      · rename_i hl
        simp only [goodSeg, ne_eq, decide_eq_true_eq, List.reverse_eq_nil_iff]
        refine ⟨fun e => hl (.inl e), fun e => hl (.inr ?_)⟩
        have := congrArg List.reverse e
        simpa using this

/-- The head of a text and its body. -/
theorem segs_body (t : List Char) : segs (t.drop (rawHeadLen t)) = segs t := by
  unfold rawHeadLen
  cases t with
  | nil => rfl
  | cons c cs =>
    cases ha : rawAbs (c :: cs) with
    | true =>
      simp only [rawAbs, List.head?_cons, Option.some.injEq, decide_eq_true_eq] at ha
      subst ha
      simp [segs_slash]
    | false =>
      cases hc : rawCurDir (c :: cs) with
      | false => simp
      | true =>
        rw [rawCurDir_cons] at hc
        simp only [decide_eq_true_eq] at hc
        obtain ⟨rfl, h | h⟩ := hc
        · subst h; rfl
        · cases cs with
          | nil => rfl
          | cons d ds =>
            simp only [List.head?_cons, Option.some.injEq] at h
            subst h
            have := segs_append ['.'] ds
            simp only [List.cons_append, List.nil_append] at this
            simp only [Bool.or_true, if_true, List.drop_succ_cons, List.drop_zero]
            rw [this, segs_slash, segs_bad (c := ['.']) (by decide) rfl, List.nil_append]

theorem segs_rawBody (t : List Char) : segs (rawBody t).reverse = segs t := by
  unfold rawBody
  rw [trimBack_segs _ _ (Nat.le_refl _), List.reverse_reverse, segs_body]

theorem rawBody_good {t : List Char} (h : rawBody t ≠ []) : goodSeg (lastComp (rawBody t)).reverse = true :=
  trimBack_good _ _ (Nat.le_refl _) h

/-- The components of a text whose body is not empty, the last one apart. -/
theorem segs_last {t : List Char} (h : rawBody t ≠ []) :
    segs t = segs (beforeComp (rawBody t)).reverse ++ [(lastComp (rawBody t)).reverse] := by
  rw [← segs_rawBody, segs_rev, segs_one (lastComp_noSlash _) (rawBody_good h)]

theorem segs_none {t : List Char} (h : rawBody t = []) : segs t = [] := by
  rw [← segs_rawBody, h]
  rfl

/-- A text put together from a head and a body. -/
theorem ofChars_head (t b : List Char) (hb : rawHeadLen t = 0 → rawAbs b = false ∧ rawCurDir b = false)
    (hd : rawCurDir t = true → b = [] ∨ b.head? = some '/') :
    Path.ofChars (t.take (rawHeadLen t) ++ b) =
      ⟨rawAbs t, (if rawCurDir t then ["."] else []) ++ (segs b).map String.ofList⟩ := by
  rw [ofChars_segs]
  cases ha : rawAbs t with
  | true =>
    cases t with
    | nil => simp [rawAbs] at ha
    | cons c cs =>
      have hc := rawCurDir_abs ha
      have : rawHeadLen (c :: cs) = 1 := by simp [rawHeadLen, ha]
      rw [this, hc]
      simp only [rawAbs, List.head?_cons, Option.some.injEq, decide_eq_true_eq] at ha
      subst ha
      have e : List.take 1 ('/' :: cs) ++ b = '/' :: b := rfl
      rw [e, segs_slash, rawCurDir_abs (a := '/' :: b) (by simp [rawAbs])]
      simp [rawAbs]
  | false =>
    cases hc : rawCurDir t with
    | true =>
      cases t with
      | nil => simp [rawCurDir] at hc
      | cons c cs =>
        have hh : rawHeadLen (c :: cs) = 1 := by simp [rawHeadLen, hc]
        have hd' := hd hc
        rw [rawCurDir_cons] at hc
        simp only [decide_eq_true_eq] at hc
        obtain ⟨rfl, _⟩ := hc
        have e0 : List.take (rawHeadLen ('.' :: cs)) ('.' :: cs) ++ b = '.' :: b := by rw [hh]; rfl
        have e1 : rawCurDir ('.' :: b) = true := by
          rw [rawCurDir_cons]
          simpa using hd'
        have e2 : segs ('.' :: b) = segs b := by
          rcases hd' with rfl | h
          · rfl
          · cases b with
            | nil => rfl
            | cons d ds =>
              simp only [List.head?_cons, Option.some.injEq] at h
              subst h
              have := segs_append ['.'] ds
              simp only [List.cons_append, List.nil_append] at this
              rw [this, segs_slash, segs_bad (c := ['.']) (by decide) rfl, List.nil_append]
        rw [e0, e1, e2]
        simp [rawAbs]
    | false =>
      have hh : rawHeadLen t = 0 := by simp [rawHeadLen, ha, hc]
      obtain ⟨h1, h2⟩ := hb hh
      have e0 : List.take (rawHeadLen t) t ++ b = b := by rw [hh]; rfl
      rw [e0, h1, h2]

/-- A prefix of the body of a text. -/
theorem body_prefix_ok {t b : List Char} (hp : b <+: t.drop (rawHeadLen t)) (hb : b ≠ ['.']) :
    (rawHeadLen t = 0 → rawAbs b = false ∧ (rawCurDir b = false)) ∧
    (rawCurDir t = true → b = [] ∨ b.head? = some '/') := by
  obtain ⟨s, hs⟩ := hp
  constructor
  · intro h0
    have hn : rawAbs t = false ∧ rawCurDir t = false := by
      unfold rawHeadLen at h0
      constructor
      · cases h : rawAbs t with
        | false => rfl
        | true => simp [h] at h0
      · cases h : rawCurDir t with
        | false => rfl
        | true => simp [h] at h0
    rw [h0, List.drop_zero] at hs
    cases b with
    | nil => exact ⟨rfl, rfl⟩
    | cons c cs =>
      subst hs
      refine ⟨hn.1, ?_⟩
      have h2 := hn.2
      rw [List.cons_append, rawCurDir_cons] at h2
      rw [rawCurDir_cons]
      simp only [decide_eq_false_iff_not, not_and, not_or] at h2 ⊢
      intro e
      obtain ⟨h3, h4⟩ := h2 e
      cases cs with
      | nil =>
        subst e
        exact absurd rfl hb
      | cons d ds => simpa using h4
  · intro hc
    cases t with
    | nil => simp [rawCurDir] at hc
    | cons c cs =>
      have hh : rawHeadLen (c :: cs) = 1 := by simp [rawHeadLen, hc]
      rw [rawCurDir_cons] at hc
      simp only [decide_eq_true_eq] at hc
      rw [hh] at hs
      simp only [List.drop_succ_cons, List.drop_zero] at hs
      cases b with
      | nil => exact .inl rfl
      | cons d ds =>
        right
        rcases hc.2 with h | h
        · rw [h] at hs; simp at hs
        · rw [← hs] at h; simpa using h

theorem trimBack_suffix : ∀ (n : Nat) (r : List Char), r.length ≤ n → trimBack r <:+ r
  | 0, r, h => by
    have : r = [] := List.eq_nil_of_length_eq_zero (by omega)
    subst this
    rw [trimBack]
    exact List.suffix_refl _
  | n + 1, r, h => by
    cases r with
    | nil => rw [trimBack]; exact List.suffix_refl _
    | cons c r =>
      rw [trimBack]
      split
      · have hlen := beforeComp_length c r
        exact (trimBack_suffix n _ (by omega)).trans
          ((List.tail_suffix _).trans (List.dropWhile_suffix _))
      · exact List.suffix_refl _

theorem trimBack_ne_dot (r : List Char) : (trimBack r).reverse ≠ ['.'] := by
  intro h
  have h' : trimBack r = ['.'] := by
    have := congrArg List.reverse h
    simpa using this
  have := trimBack_good _ r (Nat.le_refl _) (by rw [h']; simp)
  rw [h'] at this
  exact absurd this (by decide)

theorem beforeComp_suffix (r : List Char) : beforeComp r <:+ r :=
  (List.tail_suffix _).trans (List.dropWhile_suffix _)

theorem rawBody_suffix (t : List Char) : rawBody t <:+ (t.drop (rawHeadLen t)).reverse :=
  trimBack_suffix _ _ (Nat.le_refl _)

theorem prefix_of_rev {r : List Char} {b : List Char} (h : r <:+ b.reverse) : r.reverse <+: b := by
  have := List.reverse_prefix.2 h
  simpa using this

/-- `pop` on texts is `pop` on components. -/
theorem ofChars_pop (t : List Char) : Path.ofChars (rawPop t) = (Path.ofChars t).pop := by
  unfold rawPop
  have hs := @segs_last t
  have hn := @segs_none t
  have hsuf := rawBody_suffix t
  cases hb : rawBody t with
  | nil =>
    rw [ofChars_segs t, hn hb]
    cases hc : rawCurDir t with
    | true =>
      have ha : rawAbs t = false := by
        cases h : rawAbs t with
        | false => rfl
        | true => rw [rawCurDir_abs h] at hc; cases hc
      rw [ha]
      rfl
    | false =>
      simp only [Bool.false_eq_true, if_false]
      rw [ofChars_segs t, hn hb, hc]
      rfl
  | cons c r =>
    rw [hb] at hs hsuf
    have hs := hs (by simp)
    simp only
    have hpre : (trimBack (beforeComp (c :: r))).reverse <+: t.drop (rawHeadLen t) :=
      prefix_of_rev (((trimBack_suffix _ _ (Nat.le_refl _)).trans (beforeComp_suffix _)).trans hsuf)
    obtain ⟨h1, h2⟩ := body_prefix_ok hpre (trimBack_ne_dot _)
    rw [ofChars_head t _ h1 h2, trimBack_segs _ _ (Nat.le_refl _), ofChars_segs t, hs]
    unfold Path.pop
    simp only [List.map_append, List.map_cons, List.map_nil, ← List.append_assoc, List.dropLast_concat]

/-- `file_name` on texts is `file_name` on components. -/
theorem ofChars_fileName (t : List Char) :
    (Path.ofChars t).fileName = (rawFileName t).map String.ofList := by
  unfold rawFileName Path.fileName
  have hs := @segs_last t
  have hn := @segs_none t
  have hg := @rawBody_good t
  cases hb : rawBody t with
  | nil =>
    rw [ofChars_segs t, hn hb]
    cases rawCurDir t <;> simp
  | cons c r =>
    rw [hb] at hs hg
    have hs := hs (by simp)
    have hg := hg (by simp)
    rw [ofChars_segs t, hs]
    simp only [List.map_append, List.map_cons, List.map_nil, ← List.append_assoc, List.getLast?_concat]
    simp only [goodSeg, ne_eq, decide_eq_true_eq] at hg
    have h1 : ¬ String.ofList (lastComp (c :: r)).reverse = "." := fun e => hg.2 (ofList_eq_dot.1 e)
    have h2 : String.ofList (lastComp (c :: r)).reverse = ".." ↔ lastComp (c :: r) = ['.', '.'] := by
      constructor
      · intro h
        have h := congrArg String.toList h
        have h : (lastComp (c :: r)).reverse = ['.', '.'] := by simpa using h
        have := congrArg List.reverse h
        simpa using this
      · intro h
        rw [h]
        rfl
    by_cases h3 : lastComp (c :: r) = ['.', '.']
    · rw [if_pos (.inl (h2.2 h3)), if_pos h3]
      rfl
    · rw [if_neg (by rw [h2]; simp [h1, h3]), if_neg h3]
      rfl

/-- `extension` on texts is `extension` on components. -/
theorem ofChars_extension (t : List Char) :
    (Path.ofChars t).extension = (rawExtension t).map String.ofList := by
  unfold Path.extension rawExtension
  rw [ofChars_fileName]
  cases rawFileName t with
  | none => rfl
  | some n =>
    simp only [Option.map_some, Option.bind_some]
    cases (stemExt (String.ofList n)).2 <;> simp

theorem stem_prefix {n : List Char} (h : '/' ∉ n) (hn : n ≠ []) :
    '/' ∉ (stemExt (String.ofList n)).1.toList ∧ (stemExt (String.ofList n)).1.toList ≠ [] := by
  unfold stemExt
  have key : ∀ stem ext, splitLastDot n = some (stem, ext) → ∀ c ∈ stem, c ∈ n := by
    intro stem ext he c hc
    unfold splitLastDot at he
    simp only at he
    split at he
    · cases he
    · rename_i before hd
      cases he
      have : c ∈ n.reverse := (List.dropWhile_suffix (· ≠ '.')).subset (by
        rw [hd]
        exact List.mem_cons_of_mem _ (List.mem_reverse.1 hc))
      exact List.mem_reverse.1 this
  rw [String.toList_ofList]
  cases hs : splitLastDot n with
  | none => simpa using ⟨h, hn⟩
  | some p =>
    obtain ⟨stem, ext⟩ := p
    cases stem with
    | nil => simpa using ⟨h, hn⟩
    | cons a s =>
      simp only [String.toList_ofList]
      exact ⟨fun h' => h (key _ _ hs _ h'), by simp⟩

theorem rawFileName_some {t n : List Char} (h : rawFileName t = some n) :
    rawBody t ≠ [] ∧ n = (lastComp (rawBody t)).reverse := by
  unfold rawFileName at h
  split at h
  · cases h
  · rename_i c r hb
    split at h
    · cases h
    · cases h
      exact ⟨by rw [hb]; simp, by rw [hb]⟩

/-- `with_extension` on texts is `with_extension` on components. -/
theorem ofChars_withExtension (t : List Char) (ext : String) (he : '/' ∉ ext.toList) :
    Path.ofChars (rawWithExtension t ext.toList) = (Path.ofChars t).withExtension ext := by
  unfold rawWithExtension Path.withExtension
  rw [ofChars_fileName]
  cases hn : rawFileName t with
  | none => rfl
  | some n =>
    simp only [Option.map_some]
    obtain ⟨hb, hnn⟩ := rawFileName_some hn
    have hsl : '/' ∉ n := by rw [hnn]; exact lastComp_noSlash _
    have hg := rawBody_good hb
    have hne : n ≠ [] := by
      rw [← hnn] at hg
      exact (by simpa [goodSeg] using hg : n ≠ [] ∧ _).1
    obtain ⟨hs1, hs2⟩ := stem_prefix hsl hne
    obtain ⟨stem, hstem⟩ : ∃ s, s = (stemExt (String.ofList n)).1.toList := ⟨_, rfl⟩
    have hstem' : (stemExt (String.ofList n)).1 = String.ofList stem := by rw [hstem]; simp
    rw [← hstem] at hs1 hs2 ⊢
    rw [hstem']
    have hnew : '/' ∉ stem ++ '.' :: ext.toList := by simp [hs1, he]
    have hgood : goodSeg (stem ++ '.' :: ext.toList) = true := by
      refine decide_eq_true ⟨by simp, fun h => ?_⟩
      cases stem with
      | nil => exact hs2 rfl
      | cons a s => cases s <;> simp at h
    have hcur : ∀ X : List Char, X = [] → rawAbs (X ++ (stem ++ '.' :: ext.toList)) = false ∧
        rawCurDir (X ++ (stem ++ '.' :: ext.toList)) = false := by
      rintro X rfl
      cases stem with
      | nil => exact absurd rfl hs2
      | cons a s =>
        have ha : a ≠ '/' := fun e => hs1 (by rw [e]; exact List.mem_cons_self ..)
        constructor
        · simp [rawAbs, ha]
        · simp only [List.nil_append, List.cons_append, rawCurDir_cons, decide_eq_false_iff_not, not_and, not_or]
          intro _
          constructor
          · simp
          · intro h
            have : '/' ∈ s ++ '.' :: ext.toList := List.mem_of_mem_head? h
            rcases List.mem_append.1 this with h | h
            · exact hs1 (List.mem_cons_of_mem _ h)
            · rcases List.mem_cons.1 h with h | h
              · cases h
              · exact he h
    have hsegs := segs_last hb
    rw [← hnn] at hsegs
    have hres : (Path.ofChars t).comps.dropLast ++ [String.ofList stem ++ "." ++ ext] =
        (if rawCurDir t then ["."] else []) ++
          (segs (beforeComp (rawBody t)).reverse ++ [stem ++ '.' :: ext.toList]).map String.ofList := by
      rw [ofChars_segs, hsegs]
      simp only [List.map_append, List.map_cons, List.map_nil, ← List.append_assoc, List.dropLast_concat]
      congr 2
      apply String.toList_injective
      simp
    rw [hres, show (Path.ofChars t).abs = rawAbs t by rw [ofChars_segs]]
    have hbody := prefix_of_rev (rawBody_suffix t)
    rcases rev_parts (rawBody t) with ⟨h1, h2, h3⟩ | ⟨h1, h3⟩
    · -- the only component
      rw [h3, h2]
      simp only [List.reverse_nil, List.append_nil, segs_nil, List.nil_append]
      rw [List.append_assoc, ofChars_head]
      · rw [segs_one hnew hgood]
      · intro _
        simpa using hcur [] rfl
      · intro hc
        exfalso
        have hp : (rawBody t).reverse ≠ ['.'] := by
          rw [h1, ← hnn]
          intro e
          rw [← hnn, e] at hg
          exact absurd hg (by decide)
        rcases (body_prefix_ok hbody hp).2 hc with h | h
        · exact hb (by simpa using h)
        · rw [h1, ← hnn] at h
          exact hsl (List.mem_of_mem_head? h)
    · rw [h3]
      simp only [List.reverse_cons, List.append_assoc, List.cons_append, List.nil_append]
      have hpre : (beforeComp (rawBody t)).reverse ++ ['/'] <+: t.drop (rawHeadLen t) := by
        refine List.IsPrefix.trans ?_ hbody
        rw [h1]
        exact ⟨(lastComp (rawBody t)).reverse, by simp⟩
      have hok := body_prefix_ok hpre (by cases (beforeComp (rawBody t)).reverse <;> simp)
      have e : (beforeComp (rawBody t)).reverse ++ ('/' :: (stem ++ '.' :: ext.toList)) =
          ((beforeComp (rawBody t)).reverse ++ ['/']) ++ (stem ++ '.' :: ext.toList) := by simp
      rw [ofChars_head]
      · rw [segs_append, segs_one hnew hgood]
      · intro h0
        obtain ⟨h4, h5⟩ := hok.1 h0
        by_cases hx : (beforeComp (rawBody t)).reverse = []
        · rw [hx] at h4
          exact absurd h4 (by decide)
        · rw [rawAbs_append hx, rawCurDir_append_slash hx]
          rw [rawAbs_append hx] at h4
          rw [rawCurDir_append_slash hx] at h5
          exact ⟨h4, h5⟩
      · intro hc
        right
        rcases hok.2 hc with h | h
        · simp at h
        · rw [e]
          cases hx : (beforeComp (rawBody t)).reverse ++ ['/'] with
          | nil => simp at hx
          | cons d ds => rw [hx] at h; simpa using h

end Qlc
