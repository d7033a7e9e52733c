import Verif.Lemmas.Emit
import Verif.Lemmas.IRTree
/-
The generated declarations of one position: one object type per group of merged alternatives, and a union
if there are several.
-/
set_option autoImplicit false

namespace Qlc
open Spec

/-- One object type generated for a position: the alternative whose body is used, the object types it
stands for, and its name. -/
structure Body where
  rep : Complex
  lits : List String
  path : String

/-- Are the alternatives printed as a union? -/
def isUnion : List Complex → Bool
  | [] => true
  | [_] => false
  | c :: d :: rest => decide ((c :: d :: rest).length ≠ (mergedAlts (c :: d :: rest)).length)

/-- The object types generated for a position. -/
def bodies (ps : List Complex) (main : String) : List Body :=
  match ps with
  | [] => []
  | [c] => [⟨c, [c.name], main⟩]
  | c :: d :: rest =>
    if (c :: d :: rest).length = (mergedAlts (c :: d :: rest)).length then
      [⟨c, sortStr (mergedAlts (c :: d :: rest)), main⟩]
    else
      ((c :: d :: rest).filter (fun p => decide (p.name ∉ mergedAlts (c :: d :: rest)))).map
        (fun p => ⟨p, [p.name], main ++ "_" ++ p.name⟩) ++
      (match ((c :: d :: rest).filter (fun p => decide (p.name ∈ mergedAlts (c :: d :: rest)))).getLast? with
        | none => []
        | some r => [⟨r, sortStr (mergedAlts (c :: d :: rest)), main ++ "_$$other"⟩])

theorem bodies_many (c d : Complex) (rest : List Complex) (main : String) :
    bodies (c :: d :: rest) main =
    if (c :: d :: rest).length = (mergedAlts (c :: d :: rest)).length then
      [⟨c, sortStr (mergedAlts (c :: d :: rest)), main⟩]
    else
      ((c :: d :: rest).filter (fun p => decide (p.name ∉ mergedAlts (c :: d :: rest)))).map
        (fun p => ⟨p, [p.name], main ++ "_" ++ p.name⟩) ++
      (match ((c :: d :: rest).filter (fun p => decide (p.name ∈ mergedAlts (c :: d :: rest)))).getLast? with
        | none => []
        | some r => [⟨r, sortStr (mergedAlts (c :: d :: rest)), main ++ "_$$other"⟩]) := rfl

/-- The declarations of one object type. -/
def Body.decls (cfg : TsConfig) (b : Body) : List TsDecl := objDecls cfg b.lits b.path b.rep.fields

theorem collDecls_bodies (cfg : TsConfig) (ps : List Complex) (main : String) :
    collDecls cfg ps main = (bodies ps main).flatMap (Body.decls cfg) ++
      (if isUnion ps then [.union main ((bodies ps main).map Body.path)] else []) := by
  match ps with
  | [] => rfl
  | [c] =>
    obtain ⟨T, fields⟩ := c
    rw [collDecls_one]
    simp [bodies, isUnion, Body.decls, Complex.name, Complex.fields]
  | c :: d :: rest =>
    rw [collDecls_many]
    rw [bodies_many]
    unfold isUnion
    by_cases h : (c :: d :: rest).length = (mergedAlts (c :: d :: rest)).length
    · rw [if_pos h, if_pos h]
      simp [h, Body.decls]
    · rw [if_neg h, if_neg h]
      rw [if_pos (by simpa using h)]
      rw [List.flatMap_append, List.flatMap_map, List.map_append, List.map_map]
      cases ((c :: d :: rest).filter
        (fun p => decide (p.name ∈ mergedAlts (c :: d :: rest)))).getLast? <;>
        simp [Body.decls, Function.comp_def]

/-! ### What the bodies stand for -/

theorem mem_mergedAlts {ps : List Complex} {T : String} : T ∈ mergedAlts ps ↔
    ∃ c ∈ ps, c.name = T ∧ sameSet (commonProps (ps.map (fun c => fieldIds c.fields))) (fieldIds c.fields) := by
  unfold mergedAlts repNames
  rw [mem_foldl_setInsert]
  simp only [List.not_mem_nil, false_or, List.mem_map, List.mem_filter, List.map_map, Function.comp_def]
  constructor
  · rintro ⟨e, ⟨⟨c, hc, rfl⟩, h⟩, rfl⟩
    exact ⟨c, hc, rfl, h⟩
  · rintro ⟨c, hc, rfl, h⟩
    exact ⟨_, ⟨⟨c, hc, rfl⟩, h⟩, rfl⟩

theorem mergedAlts_nodup (ps : List Complex) : (mergedAlts ps).Nodup := by
  unfold mergedAlts repNames
  exact nodup_foldl_setInsert _ _ (by simp)

theorem sameSet_iff {a b : List String} : sameSet a b = true ↔ ∀ x, x ∈ a ↔ x ∈ b := by
  unfold sameSet
  simp only [Bool.and_eq_true, List.all_eq_true, decide_eq_true_eq]
  constructor
  · rintro ⟨h1, h2⟩ x; exact ⟨h1 x, h2 x⟩
  · intro h; exact ⟨fun x => (h x).1, fun x => (h x).2⟩

theorem sameProps_of_merged {ps : List Complex} (hn : (ps.map Complex.name).Nodup) {c d : Complex}
    (hc : c ∈ ps) (hd : d ∈ ps) (h1 : c.name ∈ mergedAlts ps) (h2 : d.name ∈ mergedAlts ps) :
    SameProps c d := by
  obtain ⟨c', hc', e, k⟩ := mem_mergedAlts.1 h1
  obtain ⟨d', hd', e', k'⟩ := mem_mergedAlts.1 h2
  have := List.inj_on_of_nodup_map hn hc' hc e
  subst this
  have := List.inj_on_of_nodup_map hn hd' hd e'
  subst this
  intro x
  show x ∈ fieldIds c'.fields ↔ x ∈ fieldIds d'.fields
  rw [← sameSet_iff.1 k, ← sameSet_iff.1 k']

theorem merged_subset {ps : List Complex} {T : String} (h : T ∈ mergedAlts ps) :
    T ∈ ps.map Complex.name := by
  obtain ⟨c, hc, e, _⟩ := mem_mergedAlts.1 h
  exact List.mem_map.2 ⟨c, hc, e⟩

theorem merged_all {ps : List Complex} (hn : (ps.map Complex.name).Nodup)
    (h : ps.length = (mergedAlts ps).length) : ∀ T, T ∈ mergedAlts ps ↔ T ∈ ps.map Complex.name := by
  intro T
  refine ⟨merged_subset, ?_⟩
  have hp : (mergedAlts ps).Perm (ps.map Complex.name) := by
    refine (List.subperm_of_subset (mergedAlts_nodup ps)
      (fun T hT => merged_subset hT)).perm_of_length_le ?_
    rw [List.length_map, h]; exact Nat.le_refl _
  exact (hp.mem_iff).2

theorem mem_bodies {ps : List Complex} {main : String} {b : Body} (h : b ∈ bodies ps main) :
    b.rep ∈ ps ∧ b.lits ≠ [] := by
  match ps, h with
  | [c], h =>
    unfold bodies at h
    rw [List.mem_singleton] at h
    subst h
    simp
  | c :: d :: rest, h =>
    rw [bodies_many] at h
    split at h
    · rename_i hl
      rw [List.mem_singleton] at h
      subst h
      refine ⟨List.mem_cons_self, sortStr_ne_nil ?_⟩
      intro e
      rw [e] at hl
      simp at hl
    · rw [List.mem_append] at h
      rcases h with h | h
      · obtain ⟨p, hp, rfl⟩ := List.mem_map.1 h
        exact ⟨(List.mem_filter.1 hp).1, by simp⟩
      · split at h
        · simp at h
        · rename_i r hr
          rw [List.mem_singleton] at h
          subst h
          have hm := List.mem_of_getLast? hr
          obtain ⟨h1, h2⟩ := List.mem_filter.1 hm
          refine ⟨h1, sortStr_ne_nil ?_⟩
          intro e
          rw [e] at h2
          simp at h2

theorem mem_sortStr {x : String} {l : List String} : x ∈ sortStr l ↔ x ∈ l := (sortStr_perm l).mem_iff

/-- A merged body stands for alternatives with the same property names as the one it is generated from. -/
theorem bodies_sameProps {ps : List Complex} (hn : (ps.map Complex.name).Nodup) {main : String} {b : Body}
    (h : b ∈ bodies ps main) {T : String} (hT : T ∈ b.lits) :
    ∃ c ∈ ps, c.name = T ∧ SameProps c b.rep := by
  match ps, h with
  | [c], h =>
    unfold bodies at h
    rw [List.mem_singleton] at h
    subst h
    rw [List.mem_singleton] at hT
    exact ⟨c, by simp, hT.symm, fun _ => Iff.rfl⟩
  | c :: d :: rest, h =>
    rw [bodies_many] at h
    split at h
    · rename_i hl
      rw [List.mem_singleton] at h
      subst h
      rw [mem_sortStr] at hT
      obtain ⟨e, he, rfl⟩ := List.mem_map.1 (merged_subset hT)
      refine ⟨e, he, rfl, sameProps_of_merged hn he List.mem_cons_self hT ?_⟩
      exact (merged_all hn hl _).2 (List.mem_map.2 ⟨c, List.mem_cons_self, rfl⟩)
    · rw [List.mem_append] at h
      rcases h with h | h
      · obtain ⟨p, hp, rfl⟩ := List.mem_map.1 h
        rw [List.mem_singleton] at hT
        exact ⟨p, (List.mem_filter.1 hp).1, hT.symm, fun _ => Iff.rfl⟩
      · split at h
        · simp at h
        · rename_i r hr
          rw [List.mem_singleton] at h
          subst h
          have hm := List.mem_of_getLast? hr
          obtain ⟨h1, h2⟩ := List.mem_filter.1 hm
          rw [mem_sortStr] at hT
          obtain ⟨e, he, rfl⟩ := List.mem_map.1 (merged_subset hT)
          exact ⟨e, he, rfl, sameProps_of_merged hn he h1 hT (by simpa using h2)⟩

/-- Every alternative is covered by a body, and only alternatives are. -/
theorem bodies_cover {ps : List Complex} (hn : (ps.map Complex.name).Nodup) (main : String) (T : String) :
    T ∈ ps.map Complex.name ↔ ∃ b ∈ bodies ps main, T ∈ b.lits := by
  constructor
  · intro hT
    match ps, hT with
    | [c], hT =>
      refine ⟨⟨c, [c.name], main⟩, by simp [bodies], ?_⟩
      simpa using hT
    | c :: d :: rest, hT =>
      rw [bodies_many]
      split
      · rename_i hl
        refine ⟨_, List.mem_singleton.2 rfl, ?_⟩
        rw [mem_sortStr]
        exact (merged_all hn hl _).2 hT
      · obtain ⟨e, he, rfl⟩ := List.mem_map.1 hT
        by_cases hm : e.name ∈ mergedAlts (c :: d :: rest)
        · have hne : ((c :: d :: rest).filter
              (fun p => decide (p.name ∈ mergedAlts (c :: d :: rest)))) ≠ [] := by
            intro e0
            have : e ∈ ((c :: d :: rest).filter
              (fun p => decide (p.name ∈ mergedAlts (c :: d :: rest)))) :=
              List.mem_filter.2 ⟨he, by simpa using hm⟩
            rw [e0] at this
            simp at this
          rw [List.getLast?_eq_some_getLast hne]
          refine ⟨_, List.mem_append.2 (.inr (List.mem_singleton.2 rfl)), ?_⟩
          rw [mem_sortStr]
          exact hm
        · refine ⟨⟨e, [e.name], main ++ "_" ++ e.name⟩, List.mem_append.2 (.inl ?_), by simp⟩
          exact List.mem_map.2 ⟨e, List.mem_filter.2 ⟨he, by simpa using hm⟩, rfl⟩
  · rintro ⟨b, hb, hT⟩
    obtain ⟨c, hc, rfl, _⟩ := bodies_sameProps hn hb hT
    exact List.mem_map.2 ⟨c, hc, rfl⟩

/-- No object type is covered twice. -/
theorem bodies_disjoint {ps : List Complex} (hn : (ps.map Complex.name).Nodup) (main : String) :
    (bodies ps main).Pairwise (fun a b => ∀ T, T ∈ a.lits → T ∉ b.lits) := by
  match ps, hn with
  | [], _ => simp [bodies]
  | [c], _ => simp [bodies]
  | c :: d :: rest, hn =>
    rw [bodies_many]
    split
    · simp
    · rw [List.pairwise_append]
      refine ⟨?_, ?_, ?_⟩
      · rw [List.pairwise_map]
        have h1 : (c :: d :: rest).Pairwise (fun a b => a.name ≠ b.name) := List.pairwise_map.1 hn
        refine (h1.filter _).imp ?_
        intro a b hab T hT hT'
        rw [List.mem_singleton] at hT hT'
        exact hab (hT ▸ hT')
      · split <;> simp
      · intro a ha b hb T hT hT'
        obtain ⟨p, hp, rfl⟩ := List.mem_map.1 ha
        split at hb
        · simp at hb
        · rw [List.mem_singleton] at hb
          subst hb
          rw [List.mem_singleton] at hT
          rw [mem_sortStr, hT] at hT'
          have := (List.mem_filter.1 hp).2
          simp only [decide_eq_true_eq] at this
          exact this hT'

/-- A single object type carries the name of the position; several are a union under that name. -/
theorem bodies_single {ps : List Complex} {main : String} (h : isUnion ps = false) :
    ∀ b ∈ bodies ps main, b.path = main := by
  match ps, h with
  | [], _ => simp [bodies]
  | [c], _ => simp [bodies]
  | c :: d :: rest, h =>
    have : (c :: d :: rest).length = (mergedAlts (c :: d :: rest)).length := by
      unfold isUnion at h
      simpa using h
    rw [bodies_many]
    rw [if_pos this]
    simp

theorem bodies_length {ps : List Complex} {main : String} (h : isUnion ps = false) :
    (bodies ps main).length ≤ 1 := by
  match ps, h with
  | [], _ => simp [bodies]
  | [c], _ => simp [bodies]
  | c :: d :: rest, h =>
    have : (c :: d :: rest).length = (mergedAlts (c :: d :: rest)).length := by
      unfold isUnion at h
      simpa using h
    rw [bodies_many]
    rw [if_pos this]
    simp

theorem bodies_union {ps : List Complex} {main : String} (h : isUnion ps = true) :
    (∀ b ∈ bodies ps main, (b.path = main ++ "_" ++ b.rep.name ∧ b.lits = [b.rep.name]) ∨
      b.path = main ++ "_$$other") ∧
    ((∀ c ∈ ps, c.name ≠ "$$other") → (ps.map Complex.name).Nodup →
      ((bodies ps main).map Body.path).Nodup) := by
  match ps, h with
  | [], h => simp [bodies]
  | [c], h => simp [isUnion] at h
  | c :: d :: rest, h =>
    have hne : (c :: d :: rest).length ≠ (mergedAlts (c :: d :: rest)).length := by
      unfold isUnion at h
      simpa using h
    rw [bodies_many]
    rw [if_neg hne]
    constructor
    · intro b hb
      rcases List.mem_append.1 hb with hb | hb
      · obtain ⟨p, hp, rfl⟩ := List.mem_map.1 hb
        exact .inl ⟨rfl, rfl⟩
      · split at hb
        · simp at hb
        · rw [List.mem_singleton] at hb
          subst hb
          exact .inr rfl
    · intro hother hn
      have inj : ∀ a b : String, main ++ "_" ++ a = main ++ "_" ++ b → a = b := by
        intro a b e
        apply String.toList_inj.1
        have := congrArg String.toList e
        simpa using this
      rw [List.map_append, List.nodup_append]
      refine ⟨?_, ?_, ?_⟩
      · rw [List.map_map]
        have hn' : ((c :: d :: rest).filter (fun p => decide (p.name ∉ mergedAlts (c :: d :: rest)))).Pairwise
            (fun a b => a.name ≠ b.name) := (List.pairwise_map.1 hn).filter _
        unfold List.Nodup
        rw [List.pairwise_map]
        exact hn'.imp (fun hab e => hab (inj _ _ e))
      · split <;> simp
      · intro a ha b hb
        rw [List.map_map] at ha
        obtain ⟨p, hp, rfl⟩ := List.mem_map.1 ha
        split at hb
        · simp at hb
        · simp only [List.map_cons, List.map_nil, List.mem_singleton] at hb
          subst hb
          intro e
          refine hother p (List.mem_filter.1 hp).1 (inj _ _ ?_)
          simp only [Function.comp_apply] at e
          rw [e]
          apply String.toList_inj.1
          simp

/-! ### Sub-positions -/

theorem under_head {ps qs : List Complex} {T : String} {fields : List IRField} {fld : IRField}
    {sub : List Complex} (hm : Complex.mk T fields ∈ ps) (hf : fld ∈ fields)
    (hty : fld.type = .complex sub) (h : Under sub qs) : Under ps qs := by
  induction h with
  | refl => exact .step .refl hm hf hty
  | step _ h1 h2 h3 ih => exact .step ih h1 h2 h3

/-- The declarations of one object type: those below its composite properties, then its own. -/
theorem mem_objDecls {cfg : TsConfig} {lits : List String} {path : String} {fields : List IRField}
    {d : TsDecl} : d ∈ objDecls cfg lits path fields ↔
      (∃ fld ∈ fields, ∃ sub, fld.type = .complex sub ∧ d ∈ collDecls cfg sub (path ++ "_" ++ fld.propName)) ∨
      d = .object path (aFields cfg lits path fields).2 := by
  unfold objDecls
  rw [List.mem_append, List.mem_singleton, aFields_decls, List.mem_flatMap]
  refine or_congr ?_ Iff.rfl
  constructor
  · rintro ⟨fld, hf, hd⟩
    refine ⟨fld, hf, ?_⟩
    cases hty : fld.type with
    | complex sub =>
      rw [hty] at hd
      unfold aType at hd
      exact ⟨sub, rfl, hd⟩
    | _ => rw [hty] at hd; unfold aType at hd; simp at hd
  · rintro ⟨fld, hf, sub, hty, hd⟩
    refine ⟨fld, hf, ?_⟩
    rw [hty]
    unfold aType
    exact hd

theorem mem_collDecls {cfg : TsConfig} {ps : List Complex} {main : String} {d : TsDecl} :
    d ∈ collDecls cfg ps main ↔ (∃ b ∈ bodies ps main, d ∈ b.decls cfg) ∨
      (isUnion ps = true ∧ d = .union main ((bodies ps main).map Body.path)) := by
  rw [collDecls_bodies, List.mem_append, List.mem_flatMap]
  refine or_congr Iff.rfl ?_
  split <;> simp_all

end Qlc
