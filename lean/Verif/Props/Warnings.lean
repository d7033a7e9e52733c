import Verif.Props.Selections
/-
Properties C14 and C15: the warnings of compiling a definition.
-/
set_option autoImplicit false

namespace Qlc
open Spec

variable {schema : Schema} {frags : Frags}

/-! ### C14 -/

/-- Two listings of the same set of names. -/
def SameNames (a b : List String) : Prop := ∀ x, x ∈ a ↔ x ∈ b

theorem neverMatching_flatMap (P : String) (N : List String) (items : List Selection) :
    neverMatching schema frags P N items = items.flatMap (neverMatchingSel schema frags P N) := by
  induction items with
  | nil => simp [neverMatching]
  | cons s items ih => simp [neverMatching, ih]

/-- What the listing of fragments that never match contains. -/
theorem mem_neverMatching_of_occurs {P : String} {N : List String} {items : List Selection}
    {P' : String} {N' : List String} {sel : Selection} (h : Occurs schema P N items P' N' sel) :
    ∀ p C, narrowsTo frags sel = some (p, C) → NeverMatches schema N' C →
      (p, C, N') ∈ neverMatching schema frags P N items := by
  induction h with
  | @here P N items sel hs =>
    intro p C h1 h2
    rw [neverMatching_flatMap, List.mem_flatMap]
    refine ⟨_, hs, ?_⟩
    cases sel with
    | field => simp [narrowsTo] at h1
    | «inline» pos cond dirs sub =>
      cases cond with
      | none => simp [narrowsTo] at h1
      | some C' =>
        simp only [narrowsTo, Option.map_some, Option.some.injEq, Prod.mk.injEq] at h1
        obtain ⟨rfl, rfl⟩ := h1
        unfold neverMatchingSel
        rw [if_pos h2.1, if_pos h2]; simp
    | spread pos name dirs =>
      cases hf : AMap.get? frags name with
      | none => simp [narrowsTo, hf] at h1
      | some fd =>
        simp only [narrowsTo, hf, Option.map_some, Option.some.injEq, Prod.mk.injEq] at h1
        obtain ⟨rfl, rfl⟩ := h1
        unfold neverMatchingSel
        rw [hf]; simp [h2]
  | field h1 h2 h3 _ ih =>
    intro p C hn hm
    rw [neverMatching_flatMap, List.mem_flatMap]
    refine ⟨_, h1, ?_⟩
    unfold neverMatchingSel
    rw [h2]
    simp only [h3, if_true]
    exact ih p C hn hm
  | «inline» h1 h2 _ ih =>
    intro p C hn hm
    rw [neverMatching_flatMap, List.mem_flatMap]
    refine ⟨_, h1, ?_⟩
    unfold neverMatchingSel
    rw [if_pos h2]
    exact List.mem_append_right _ (ih p C hn hm)

mutual
theorem occurs_of_mem_neverMatchingSel : ∀ (s : Selection) (P : String) (N : List String)
    (p : Pos) (C : String) (N' : List String), (p, C, N') ∈ neverMatchingSel schema frags P N s →
    ∀ items, s ∈ items → ∃ P' sel, Occurs schema P N items P' N' sel ∧
      narrowsTo frags sel = some (p, C) ∧ NeverMatches schema N' C
  | .field pos al name args dirs sub, P, N, p, C, N' => by
    intro h items hs
    unfold neverMatchingSel at h
    cases hf : fieldOf schema P name with
    | none => rw [hf] at h; simp at h
    | some f =>
      rw [hf] at h
      simp only at h
      by_cases hc : IsComposite schema f.type.name
      · rw [if_pos hc] at h
        obtain ⟨P', sel, h1, h2, h3⟩ := occurs_of_mem_neverMatching sub _ _ p C N' h
        exact ⟨P', sel, .field hs hf hc h1, h2, h3⟩
      · rw [if_neg hc] at h; simp at h
  | .inline pos none dirs sub, P, N, p, C, N' => by
    intro h; unfold neverMatchingSel at h; simp at h
  | .inline pos (some C₀) dirs sub, P, N, p, C, N' => by
    intro h items hs
    unfold neverMatchingSel at h
    by_cases hc : IsComposite schema C₀
    · rw [if_pos hc, List.mem_append] at h
      rcases h with h | h
      · by_cases hm : NeverMatches schema N C₀
        · rw [if_pos hm] at h
          simp only [List.mem_singleton, Prod.mk.injEq] at h
          obtain ⟨rfl, rfl, rfl⟩ := h
          exact ⟨P, _, .here hs, rfl, hm⟩
        · rw [if_neg hm] at h; simp at h
      · obtain ⟨P', sel, h1, h2, h3⟩ := occurs_of_mem_neverMatching sub _ _ p C N' h
        exact ⟨P', sel, .inline hs hc h1, h2, h3⟩
    · rw [if_neg hc] at h; simp at h
  | .spread pos name dirs, P, N, p, C, N' => by
    intro h items hs
    unfold neverMatchingSel at h
    cases hf : AMap.get? frags name with
    | none => rw [hf] at h; simp at h
    | some fd =>
      rw [hf] at h
      simp only at h
      by_cases hm : NeverMatches schema N fd.typeCond
      · rw [if_pos hm] at h
        simp only [List.mem_singleton, Prod.mk.injEq] at h
        obtain ⟨rfl, rfl, rfl⟩ := h
        exact ⟨P, _, .here hs, by simp [narrowsTo, hf], hm⟩
      · rw [if_neg hm] at h; simp at h
theorem occurs_of_mem_neverMatching : ∀ (items : List Selection) (P : String) (N : List String)
    (p : Pos) (C : String) (N' : List String), (p, C, N') ∈ neverMatching schema frags P N items →
    ∃ P' sel, Occurs schema P N items P' N' sel ∧
      narrowsTo frags sel = some (p, C) ∧ NeverMatches schema N' C
  | [], P, N, p, C, N' => by intro h; unfold neverMatching at h; simp at h
  | s :: rest, P, N, p, C, N' => by
    intro h
    unfold neverMatching at h
    rcases List.mem_append.1 h with h | h
    · exact occurs_of_mem_neverMatchingSel s P N p C N' h _ (List.mem_cons_self ..)
    · obtain ⟨P', sel, h1, h2, h3⟩ := occurs_of_mem_neverMatching rest P N p C N' h
      refine ⟨P', sel, ?_, h2, h3⟩
      cases h1 with
      | here h => exact .here (List.mem_cons_of_mem _ h)
      | field a b c d => exact .field (List.mem_cons_of_mem _ a) b c d
      | «inline» a b c => exact .inline (List.mem_cons_of_mem _ a) b c
end

/-- **C14.** The listing contains exactly the inline fragments and spreads, written anywhere in the
selection set, that can never match where they are written. -/
theorem C14_listed_iff (P : String) (N : List String) (items : List Selection) (p : Pos) (C : String)
    (N' : List String) :
    (p, C, N') ∈ neverMatching schema frags P N items ↔
      ∃ P' sel, Occurs schema P N items P' N' sel ∧ narrowsTo frags sel = some (p, C) ∧
        NeverMatches schema N' C :=
  ⟨occurs_of_mem_neverMatching items P N p C N',
    fun ⟨_, _, h1, h2, h3⟩ => mem_neverMatching_of_occurs h1 p C h2 h3⟩

/-- One warning, one listed fragment: same place, same type, the same object types each named once. -/
def WarnsFor (a b : Pos × String × List String) : Prop :=
  a.1 = b.1 ∧ a.2.1 = b.2.1 ∧ a.2.2.Nodup ∧ SameNames a.2.2 b.2.2

theorem narrowings_append (a b : List Warning) :
    narrowings (a ++ b) = narrowings a ++ narrowings b := List.filterMap_append

theorem narrowings_dep (showDep : Bool) (pos : Pos) (P : String) (f : SField) :
    narrowings (depWarning showDep pos P f) = [] := by
  unfold depWarning; split <;> simp [narrowings]

theorem never_iff {N M : List String} (h : SameNames N M) (C : String) (hC : IsComposite schema C) :
    (narrowed schema C N).isEmpty = true ↔ NeverMatches schema M C := by
  unfold narrowed NeverMatches
  rw [List.isEmpty_iff, List.filter_eq_nil_iff]
  constructor
  · intro h'
    exact ⟨hC, fun T hT hTC => h' T ((mem_possibleNames C T).2 hTC) (by simpa using (h T).2 hT)⟩
  · rintro ⟨_, h'⟩ T hT hN
    exact h' T ((h T).1 (by simpa using hN)) ((mem_possibleNames C T).1 hT)

theorem narrowWarning_spec {N M : List String} (h : SameNames N M) (hN : N.Nodup) (pos : Pos) (C : String)
    (hC : IsComposite schema C) : List.Forall₂ WarnsFor (narrowings (narrowWarning schema pos C N))
      (if NeverMatches schema M C then [(pos, C, M)] else []) := by
  unfold narrowWarning
  by_cases hn : NeverMatches schema M C
  · rw [if_pos hn, if_pos ((never_iff h C hC).2 hn)]
    exact .cons ⟨rfl, rfl, hN, h⟩ .nil
  · rw [if_neg hn, if_neg (fun h' => hn ((never_iff h C hC).1 h'))]
    exact .nil

theorem sameNames_narrowed {N M : List String} (h : SameNames N M) (C : String) :
    SameNames (narrowed schema C N) ((possibleTypes schema C).filter (fun T => T ∈ M)) := by
  intro T
  unfold narrowed
  simp [mem_possibleNames, h T]

mutual
theorem warnSel_narrowings (hcon : Consistent schema) (showDep : Bool) :
    ∀ (s : Selection) (P : String) (N M : List String), SameNames N M → N.Nodup →
    List.Forall₂ WarnsFor (narrowings (warnSel schema frags showDep P N s))
      (neverMatchingSel schema frags P M s)
  | .field pos al name args dirs sub, P, N, M, h, hN => by
    unfold warnSel neverMatchingSel
    cases hf : fieldOf schema P name with
    | none => exact .nil
    | some f =>
      simp only
      by_cases hc : IsComposite schema f.type.name
      · rw [if_pos hc, if_pos ((hcon P name f hf).2.2 hc)]
        by_cases he : sub.isEmpty = true
        · rw [if_pos he, List.isEmpty_iff.1 he]
          unfold neverMatching
          exact .nil
        · rw [if_neg he, narrowings_append]
          have : narrowings (if (checkSels schema frags true f.type.name sub).isEmpty = true then
              depWarning showDep pos P f else []) = [] := by
            split
            · exact narrowings_dep ..
            · rfl
          rw [this, List.append_nil]
          exact warnSels_narrowings hcon showDep sub _ _ _ (mem_possibleNames _) (nodup_possibleNames _)
      · rw [if_neg hc, if_neg (fun h' => hc ((hcon P name f hf).2.1 h'))]
        split
        · rw [narrowings_dep]; exact .nil
        · exact .nil
  | .inline pos none dirs sub, P, N, M, h, hN => by unfold warnSel neverMatchingSel; exact .nil
  | .inline pos (some C) dirs sub, P, N, M, h, hN => by
    unfold warnSel neverMatchingSel
    by_cases hc : IsComposite schema C
    · rw [if_pos hc, if_pos (show (fieldsOf schema C).isSome = true from hc), narrowings_append]
      refine List.rel_append (narrowWarning_spec h hN pos C hc) ?_
      exact warnSels_narrowings hcon showDep sub C _ _ (sameNames_narrowed h C)
        ((nodup_possibleNames C).filter _)
    · rw [if_neg hc, if_neg (show ¬ (fieldsOf schema C).isSome = true from hc)]
      exact .nil
  | .spread pos name dirs, P, N, M, h, hN => by
    unfold warnSel neverMatchingSel
    cases hf : AMap.get? frags name with
    | none => exact .nil
    | some fd =>
      simp only
      by_cases hc : IsComposite schema fd.typeCond
      · rw [if_pos (show (fieldsOf schema fd.typeCond).isSome = true from hc)]
        exact narrowWarning_spec h hN pos _ hc
      · rw [if_neg (show ¬ (fieldsOf schema fd.typeCond).isSome = true from hc),
          if_neg (fun h' : NeverMatches schema M fd.typeCond => hc h'.1)]
        exact .nil
theorem warnSels_narrowings (hcon : Consistent schema) (showDep : Bool) :
    ∀ (items : List Selection) (P : String) (N M : List String), SameNames N M → N.Nodup →
    List.Forall₂ WarnsFor (narrowings (warnSels schema frags showDep P N items))
      (neverMatching schema frags P M items)
  | [], P, N, M, h, hN => by unfold warnSels neverMatching; exact .nil
  | s :: rest, P, N, M, h, hN => by
    unfold warnSels neverMatching
    rw [narrowings_append]
    exact List.rel_append (warnSel_narrowings hcon showDep s P N M h hN)
      (warnSels_narrowings hcon showDep rest P N M h hN)
end

theorem narrowings_norm : ∀ (ws vs : List Warning), ws.map Warning.norm = vs.map Warning.norm →
    List.Forall₂ (fun (a b : Pos × String × List String) => a.1 = b.1 ∧ a.2.1 = b.2.1 ∧
      a.2.2.Perm b.2.2) (narrowings ws) (narrowings vs)
  | [], [], _ => .nil
  | [], v :: vs, h => by simp at h
  | w :: ws, [], h => by simp at h
  | w :: ws, v :: vs, h => by
    simp only [List.map_cons, List.cons.injEq] at h
    have ih := narrowings_norm ws vs h.2
    cases w with
    | overFragmentNarrowing p ts C =>
      cases v with
      | overFragmentNarrowing p' ts' C' =>
        simp only [Warning.norm, Warning.overFragmentNarrowing.injEq] at h
        obtain ⟨⟨rfl, h2, rfl⟩, _⟩ := h
        exact .cons ⟨rfl, rfl, ((sortBy_perm id ts).symm.trans (by
          have : sortBy id ts = sortBy id ts' := h2
          rw [this])).trans (sortBy_perm id ts')⟩ ih
      | deprecatedFieldUse => simp [Warning.norm] at h
    | deprecatedFieldUse p f t =>
      cases v with
      | overFragmentNarrowing => simp [Warning.norm] at h
      | deprecatedFieldUse => exact ih

/-- **C14.** The over-narrowing warnings of a definition correspond one to one, in document order, to the
inline fragments and spreads written in it that can never match; each names the place, the fragment's type
and every object type possible there, once.  This covers failing compiles as well, and there are no others:
nothing inside an imported fragment causes one. -/
theorem C14_warnings_are_the_never_matching (ω : Hash) (fuel : Nat) (showDep : Bool)
    (hcon : Consistent schema) (d : Definition) (r : Except (List IrError) Operation)
    (ws : List Warning) (P : String) (hP : rootType d = some P) (hcomp : IsComposite schema P)
    (h : Operation.compile ω fuel ⟨schema, showDep, frags⟩ d = some (r, ws)) :
    List.Forall₂ WarnsFor (narrowings ws)
      (neverMatching schema frags P (possibleTypes schema P) (itemsOf d)) := by
  rcases compile_spec ω fuel showDep hcon d r ws P hP h with ⟨h1, _⟩ | ⟨_, es, _, h3, _⟩
  · exact absurd hcomp h1
  · have hw := warnSels_narrowings (frags := frags) hcon showDep (itemsOf d) P
      (possibleNames schema P) (possibleTypes schema P)
      (mem_possibleNames P) (nodup_possibleNames P)
    have hn := narrowings_norm _ _ h3
    generalize narrowings ws = A at hn
    generalize narrowings (warnSels schema frags showDep P (possibleNames schema P) (itemsOf d)) = B
      at hn hw
    generalize neverMatching schema frags P (possibleTypes schema P) (itemsOf d) = Cs at hw
    clear h3 h hcomp
    induction hn generalizing Cs with
    | nil => exact hw
    | cons hab _ ih =>
      cases hw with
      | cons hbc hrest =>
        refine .cons ⟨hab.1.trans hbc.1, hab.2.1.trans hbc.2.1, hab.2.2.nodup_iff.2 hbc.2.2.1, ?_⟩
          (ih _ hrest)
        intro x
        rw [hab.2.2.mem_iff]
        exact hbc.2.2.2 x

/-- **C14.** A definition that does not compile because its type is not composite has no warnings. -/
theorem C14_no_warnings_without_type (ω : Hash) (fuel : Nat) (showDep : Bool)
    (hcon : Consistent schema) (d : Definition) (r : Except (List IrError) Operation)
    (ws : List Warning) (P : String) (hP : rootType d = some P) (hcomp : ¬ IsComposite schema P)
    (h : Operation.compile ω fuel ⟨schema, showDep, frags⟩ d = some (r, ws)) : ws = [] := by
  rcases compile_spec ω fuel showDep hcon d r ws P hP h with ⟨_, _, h1⟩ | ⟨h1, _⟩
  · exact h1
  · exact absurd h1 hcomp

/-- A query whose second and third fragments can never match. -/
def Demo.narrowQuery : Definition := .operation .query ⟨1, 1⟩ none [] []
  [.field ⟨2, 1⟩ none "node" [] []
    [.inline ⟨3, 1⟩ (some "User") [] [Demo.leaf 3 2 "id", .inline ⟨4, 1⟩ (some "Bot") [] [Demo.leaf 4 2 "id"]],
     .inline ⟨5, 1⟩ (some "Query") [] [.spread ⟨6, 1⟩ "F" []]]]

example : (Operation.compile .reversed 5 Demo.ctx Demo.narrowQuery).map (fun x => narrowings x.2) =
    some [(⟨4, 1⟩, "Bot", ["User"]), (⟨5, 1⟩, "Query", ["Bot", "User"]), (⟨6, 1⟩, "Node", [])] := by
  decide +kernel

example : neverMatching Demo.schema Demo.ctx.fragments "Query" ["Query"] (itemsOf Demo.narrowQuery) =
    [(⟨4, 1⟩, "Bot", ["User"]), (⟨5, 1⟩, "Query", ["User", "Bot"]), (⟨6, 1⟩, "Node", [])] := by
  decide +kernel

/-! ### C15 -/

theorem deprecations_append (a b : List Warning) :
    deprecations (a ++ b) = deprecations a ++ deprecations b := List.filterMap_append

theorem deprecations_norm (ws : List Warning) : deprecations (ws.map Warning.norm) = deprecations ws := by
  unfold deprecations
  rw [List.filterMap_map]
  congr 1
  funext w
  cases w <;> rfl

theorem deprecations_narrow (pos : Pos) (C : String) (N : List String) :
    deprecations (narrowWarning schema pos C N) = [] := by
  unfold narrowWarning; split <;> simp [deprecations]

mutual
theorem warnSel_dep (hcon : Consistent schema) (showDep : Bool) :
    ∀ (s : Selection) (P : String) (N : List String), checkSel schema frags true P s = [] →
    deprecations (warnSel schema frags showDep P N s) =
      if showDep then deprecatedSel schema P s else []
  | .field pos al name args dirs sub, P, N => by
    intro h
    unfold checkSel at h
    unfold warnSel deprecatedSel
    cases hf : fieldOf schema P name with
    | none => rw [hf] at h; simp at h
    | some f =>
      rw [hf] at h
      simp only at h ⊢
      have hd : deprecations (depWarning showDep pos P f) =
          if showDep then (if f.deprecated then [(pos, f.name, P)] else []) else [] := by
        unfold depWarning
        cases showDep <;> cases f.deprecated <;> simp [deprecations]
      by_cases hc : f.type.definition.isComplex = true
      · simp only [hc, if_true] at h ⊢
        by_cases he : sub.isEmpty = true
        · rw [if_pos he] at h; simp at h
        · rw [if_neg he] at h ⊢
          rw [if_pos (by rw [h]; rfl), deprecations_append, hd,
            warnSels_dep hcon showDep sub f.type.name _ h]
          cases showDep <;> simp
      · simp only [hc, if_false] at h ⊢
        by_cases he : sub.isEmpty = true
        · have : sub = [] := List.isEmpty_iff.1 he
          subst this
          simp only [List.isEmpty_nil, if_true, Bool.false_eq_true, if_false]
          rw [hd]
          unfold deprecatedUses
          simp
        · simp [he] at h
  | .inline pos none dirs sub, P, N => by intro h; unfold checkSel at h; simp at h
  | .inline pos (some C) dirs sub, P, N => by
    intro h
    unfold checkSel at h
    unfold warnSel deprecatedSel
    simp only [if_true] at h
    by_cases hc : (fieldsOf schema C).isSome = true
    · simp only [hc, if_true] at h ⊢
      rw [deprecations_append, deprecations_narrow, List.nil_append,
        warnSels_dep hcon showDep sub C _ h]
    · simp [hc] at h
  | .spread pos name dirs, P, N => by
    intro h
    unfold warnSel deprecatedSel
    cases hf : AMap.get? frags name with
    | none => simp [deprecations]
    | some fd =>
      simp only
      split
      · rw [deprecations_narrow]; simp
      · simp [deprecations]
theorem warnSels_dep (hcon : Consistent schema) (showDep : Bool) :
    ∀ (items : List Selection) (P : String) (N : List String), checkSels schema frags true P items = [] →
    deprecations (warnSels schema frags showDep P N items) =
      if showDep then deprecatedUses schema P items else []
  | [], P, N => by intro _; unfold warnSels deprecatedUses; simp [deprecations]
  | s :: rest, P, N => by
    intro h
    unfold checkSels at h
    rw [List.append_eq_nil_iff] at h
    unfold warnSels deprecatedUses
    rw [deprecations_append, warnSel_dep hcon showDep s P N h.1, warnSels_dep hcon showDep rest P N h.2]
    cases showDep <;> simp
end

/-- **C15.** When a definition compiles, the deprecation warnings are exactly the uses of deprecated fields
written in it, each once; there are none if the warnings are disabled. -/
theorem C15_deprecation_warnings_exact (ω : Hash) (fuel : Nat) (showDep : Bool)
    (hcon : Consistent schema) (d : Definition) (op : Operation) (ws : List Warning) (P : String)
    (hP : rootType d = some P)
    (h : Operation.compile ω fuel ⟨schema, showDep, frags⟩ d = some (.ok op, ws)) :
    deprecations ws = if showDep then deprecatedUses schema P (itemsOf d) else [] := by
  rcases compile_spec ω fuel showDep hcon d _ ws P hP h with ⟨_, ⟨pos, _, h1⟩, _⟩ | ⟨_, es, h2, h3, h4, _⟩
  · simp at h1
  · have hes : es = [] := by
      by_contra hne
      have := h4 hne
      simp at this
    subst hes
    rw [← deprecations_norm, h3, deprecations_norm]
    exact warnSels_dep hcon showDep _ _ _ (by simpa using h2.1.symm)

theorem deprecatedUses_flatMap (P : String) (items : List Selection) :
    deprecatedUses schema P items = items.flatMap (deprecatedSel schema P) := by
  induction items with
  | nil => simp [deprecatedUses]
  | cons s items ih => simp [deprecatedUses, ih]

theorem mem_deprecated_of_occurs {P : String} {N : List String} {items : List Selection}
    {P' : String} {N' : List String} {sel : Selection} (h : Occurs schema P N items P' N' sel) :
    ∀ (pos : Pos) (al : Option String) (name : String) (args : List (String × Value))
      (dirs : List Directive) (sub : List Selection) (f : SField),
      sel = .field pos al name args dirs sub → fieldOf schema P' name = some f → f.deprecated = true →
      (pos, f.name, P') ∈ deprecatedUses schema P items := by
  induction h with
  | here hs =>
    rintro pos al name args dirs sub f rfl hf hd
    rw [deprecatedUses_flatMap, List.mem_flatMap]
    refine ⟨_, hs, ?_⟩
    unfold deprecatedSel
    rw [hf]
    simp [hd]
  | field h1 h2 h3 _ ih =>
    intro pos al name args dirs sub f hs hf hd
    rw [deprecatedUses_flatMap, List.mem_flatMap]
    refine ⟨_, h1, ?_⟩
    unfold deprecatedSel
    rw [h2]
    exact List.mem_append_left _ (ih pos al name args dirs sub f hs hf hd)
  | «inline» h1 h2 _ ih =>
    intro pos al name args dirs sub f hs hf hd
    rw [deprecatedUses_flatMap, List.mem_flatMap]
    refine ⟨_, h1, ?_⟩
    unfold deprecatedSel
    exact ih pos al name args dirs sub f hs hf hd

mutual
theorem occurs_of_mem_deprecatedSel : ∀ (s : Selection) (P : String) (N : List String)
    (x : Pos × String × String), x ∈ deprecatedSel schema P s → ∀ items, s ∈ items →
    (∀ P' N' sel, Occurs schema P N items P' N' sel → SelOk schema frags P' sel) →
    ∃ N' al name args dirs sub f, Occurs schema P N items x.2.2 N' (.field x.1 al name args dirs sub) ∧
      fieldOf schema x.2.2 name = some f ∧ f.deprecated = true ∧ x.2.1 = f.name
  | .field pos al name args dirs sub, P, N, x => by
    intro h items hs hv
    unfold deprecatedSel at h
    cases hf : fieldOf schema P name with
    | none => rw [hf] at h; simp at h
    | some f =>
      rw [hf] at h
      simp only at h
      rcases List.mem_append.1 h with h | h
      · have hne : sub ≠ [] := by
          rintro rfl
          unfold deprecatedUses at h; simp at h
        obtain ⟨f', hf', hiff⟩ := hv P N _ (.here hs)
        rw [hf] at hf'; injection hf' with e; subst e
        have hc := hiff.1 hne
        obtain ⟨N', al', name', args', dirs', sub', f', h1, h2⟩ :=
          occurs_of_mem_deprecated sub f.type.name (possibleTypes schema f.type.name) x h
            (fun P' N' sel ho => hv P' N' sel (.field hs hf hc ho))
        exact ⟨N', al', name', args', dirs', sub', f', .field hs hf hc h1, h2⟩
      · by_cases hd : f.deprecated = true
        · simp only [hd, if_true, List.mem_singleton] at h
          subst h
          exact ⟨N, al, name, args, dirs, sub, f, .here hs, hf, hd, rfl⟩
        · simp [hd] at h
  | .inline pos none dirs sub, P, N, x => by intro h; unfold deprecatedSel at h; simp at h
  | .inline pos (some C) dirs sub, P, N, x => by
    intro h items hs hv
    unfold deprecatedSel at h
    obtain ⟨C', hC', hc⟩ := hv P N _ (.here hs)
    injection hC' with e; subst e
    obtain ⟨N', al', name', args', dirs', sub', f', h1, h2⟩ :=
      occurs_of_mem_deprecated sub C ((possibleTypes schema C).filter (fun T => T ∈ N)) x h
        (fun P' N' sel ho => hv P' N' sel (.inline hs hc ho))
    exact ⟨N', al', name', args', dirs', sub', f', .inline hs hc h1, h2⟩
  | .spread pos name dirs, P, N, x => by intro h; unfold deprecatedSel at h; simp at h
theorem occurs_of_mem_deprecated : ∀ (items : List Selection) (P : String) (N : List String)
    (x : Pos × String × String), x ∈ deprecatedUses schema P items →
    (∀ P' N' sel, Occurs schema P N items P' N' sel → SelOk schema frags P' sel) →
    ∃ N' al name args dirs sub f, Occurs schema P N items x.2.2 N' (.field x.1 al name args dirs sub) ∧
      fieldOf schema x.2.2 name = some f ∧ f.deprecated = true ∧ x.2.1 = f.name
  | [], P, N, x => by intro h; unfold deprecatedUses at h; simp at h
  | s :: rest, P, N, x => by
    intro h hv
    have lift : ∀ P' N' sel, Occurs schema P N rest P' N' sel →
        Occurs schema P N (s :: rest) P' N' sel := by
      intro P' N' sel ho
      cases ho with
      | here h => exact .here (List.mem_cons_of_mem _ h)
      | field a b c d => exact .field (List.mem_cons_of_mem _ a) b c d
      | «inline» a b c => exact .inline (List.mem_cons_of_mem _ a) b c
    unfold deprecatedUses at h
    rcases List.mem_append.1 h with h | h
    · exact occurs_of_mem_deprecatedSel s P N x h _ (List.mem_cons_self ..) hv
    · obtain ⟨N', al', name', args', dirs', sub', f', h1, h2⟩ :=
        occurs_of_mem_deprecated rest P N x h (fun P' N' sel ho => hv P' N' sel (lift _ _ _ ho))
      exact ⟨N', al', name', args', dirs', sub', f', lift _ _ _ h1, h2⟩
end

/-- **C15.** The uses listed are those of deprecated fields written anywhere in a valid selection set,
inside inline fragments and sub-selections included, imported fragments excluded. -/
theorem C15_listed_iff (P : String) (items : List Selection) (hv : Valid schema frags P items)
    (pos : Pos) (fieldName P' : String) :
    (pos, fieldName, P') ∈ deprecatedUses schema P items ↔
      ∃ N' al name args dirs sub f,
        Occurs schema P (possibleTypes schema P) items P' N' (.field pos al name args dirs sub) ∧
        fieldOf schema P' name = some f ∧ f.deprecated = true ∧ fieldName = f.name := by
  constructor
  · intro h
    exact occurs_of_mem_deprecated items P _ _ h hv
  · rintro ⟨N', al, name, args, dirs, sub, f, h1, h2, h3, rfl⟩
    exact mem_deprecated_of_occurs h1 pos al name args dirs sub f rfl h2 h3

theorem invalidSelections_nil_iff (P : String) (items : List Selection) :
    invalidSelections schema frags P items = [] ↔ Valid schema frags P items := by
  rw [List.eq_nil_iff_forall_not_mem]
  constructor
  · intro h P' N' sel ho
    by_contra hbad
    exact h (P', sel) ((C08_listed_iff_invalid P items P' sel).2 ⟨N', ho, hbad⟩)
  · rintro h ⟨P', sel⟩ hx
    obtain ⟨N', ho, hbad⟩ := (C08_listed_iff_invalid P items P' sel).1 hx
    exact hbad (h P' N' sel ho)

mutual
theorem warnSel_warned (hcon : Consistent schema) (showDep : Bool) :
    ∀ (s : Selection) (P : String) (N : List String),
    deprecations (warnSel schema frags showDep P N s) =
      if showDep then warnedUsesSel schema frags P s else []
  | .field pos al name args dirs sub, P, N => by
    unfold warnSel warnedUsesSel invalidSel
    cases hf : fieldOf schema P name with
    | none => simp [deprecations]
    | some f =>
      simp only
      have hd : deprecations (depWarning showDep pos P f) =
          if showDep then (if f.deprecated then [(pos, f.name, P)] else []) else [] := by
        unfold depWarning
        cases showDep <;> cases f.deprecated <;> simp [deprecations]
      have hcc := (hcon P name f hf).2
      by_cases hc : f.type.definition.isComplex = true
      · have hic := hcc.1 hc
        simp only [hc, hic, if_true]
        by_cases he : sub.isEmpty = true
        · have : sub = [] := List.isEmpty_iff.1 he
          subst this
          unfold warnedUses
          simp [deprecations]
        · simp only [he, Bool.false_eq_true, if_false]
          have hi : (checkSels schema frags true f.type.name sub).isEmpty =
              (invalidSelections schema frags f.type.name sub).isEmpty := by
            rw [Bool.eq_iff_iff, List.isEmpty_iff, List.isEmpty_iff, check_nil_iff hcon,
              invalidSelections_nil_iff]
          rw [deprecations_append, warnSels_warned hcon showDep sub f.type.name _, hi]
          cases (invalidSelections schema frags f.type.name sub).isEmpty with
          | true =>
            simp only [if_true, hd, Bool.and_true]
            cases showDep <;> cases f.deprecated <;> simp
          | false => cases showDep <;> simp [deprecations]
      · have hic : ¬ IsComposite schema f.type.name := fun h => hc (hcc.2 h)
        simp only [hc, hic, if_false]
        by_cases he : sub.isEmpty = true
        · simp only [he, if_true, hd, List.isEmpty_nil, Bool.and_true, Bool.false_eq_true, if_false]
          cases showDep <;> cases f.deprecated <;> simp
        · simp [he, deprecations]
  | .inline pos none dirs sub, P, N => by unfold warnSel warnedUsesSel; simp [deprecations]
  | .inline pos (some C) dirs sub, P, N => by
    unfold warnSel warnedUsesSel IsComposite
    by_cases hc : (fieldsOf schema C).isSome = true
    · simp only [hc, if_true]
      rw [deprecations_append, deprecations_narrow, List.nil_append, warnSels_warned hcon showDep sub C _]
    · simp [hc, deprecations]
  | .spread pos name dirs, P, N => by
    unfold warnSel warnedUsesSel
    cases hf : AMap.get? frags name with
    | none => simp [deprecations]
    | some fd =>
      simp only
      split
      · rw [deprecations_narrow]; simp
      · simp [deprecations]
theorem warnSels_warned (hcon : Consistent schema) (showDep : Bool) :
    ∀ (items : List Selection) (P : String) (N : List String),
    deprecations (warnSels schema frags showDep P N items) =
      if showDep then warnedUses schema frags P items else []
  | [], P, N => by unfold warnSels warnedUses; simp [deprecations]
  | s :: rest, P, N => by
    unfold warnSels warnedUses
    rw [deprecations_append, warnSel_warned hcon showDep s P N, warnSels_warned hcon showDep rest P N]
    cases showDep <;> simp
end

/-- **C15.** Whether or not the definition compiles, the deprecation warnings are exactly the uses of
deprecated fields whose own selection is valid down to its leaves, each once; there are none if the warnings
are disabled. -/
theorem C15_deprecation_warnings_of_any_definition (ω : Hash) (fuel : Nat) (showDep : Bool)
    (hcon : Consistent schema) (d : Definition) (r : Except (List IrError) Operation)
    (ws : List Warning) (P : String) (hP : rootType d = some P) (hcomp : IsComposite schema P)
    (h : Operation.compile ω fuel ⟨schema, showDep, frags⟩ d = some (r, ws)) :
    deprecations ws = if showDep then warnedUses schema frags P (itemsOf d) else [] := by
  rcases compile_spec ω fuel showDep hcon d r ws P hP h with ⟨h1, _⟩ | ⟨_, es, _, h3, _⟩
  · exact absurd hcomp h1
  · rw [← deprecations_norm, h3, deprecations_norm]
    exact warnSels_warned hcon showDep _ _ _

mutual
theorem warnedSel_of_valid (P : String) : ∀ s : Selection, invalidSel schema frags P s = [] →
    warnedUsesSel schema frags P s = deprecatedSel schema P s
  | .field pos al name args dirs sub => by
    intro h
    have h' := h
    unfold invalidSel at h
    unfold warnedUsesSel deprecatedSel
    cases hf : fieldOf schema P name with
    | none => rfl
    | some f =>
      rw [hf] at h
      simp only at h ⊢
      rw [h']
      by_cases hc : IsComposite schema f.type.name
      · simp only [hc, if_true] at h ⊢
        by_cases he : sub.isEmpty = true
        · rw [if_pos he] at h; simp at h
        · rw [if_neg he] at h
          rw [warnedUses_of_valid f.type.name sub h]
          simp
      · simp only [hc, if_false] at h ⊢
        by_cases he : sub.isEmpty = true
        · have : sub = [] := List.isEmpty_iff.1 he
          subst this
          unfold deprecatedUses
          simp
        · rw [if_neg he] at h; simp at h
  | .inline pos none dirs sub => by intro h; unfold invalidSel at h; simp at h
  | .inline pos (some C) dirs sub => by
    intro h
    unfold invalidSel at h
    unfold warnedUsesSel deprecatedSel
    by_cases hc : IsComposite schema C
    · simp only [hc, if_true] at h ⊢
      exact warnedUses_of_valid C sub h
    · simp [hc] at h
  | .spread pos name dirs => by intro _; unfold warnedUsesSel deprecatedSel; rfl
theorem warnedUses_of_valid (P : String) : ∀ items : List Selection,
    invalidSelections schema frags P items = [] →
    warnedUses schema frags P items = deprecatedUses schema P items
  | [] => by intro _; unfold warnedUses deprecatedUses; rfl
  | s :: rest => by
    intro h
    unfold invalidSelections at h
    rw [List.append_eq_nil_iff] at h
    unfold warnedUses deprecatedUses
    rw [warnedSel_of_valid P s h.1, warnedUses_of_valid P rest h.2]
end

/-- In a file with an unknown field inside `friends`, the use of the deprecated `old` next to it is still
reported. -/
example : (Operation.compile .inOrder 5 Demo.ctx (.operation .query ⟨1, 1⟩ none [] [] [
      .field ⟨2, 1⟩ none "viewer" [] [] [Demo.leaf 3 1 "old", Demo.leaf 4 1 "nope"]])).map
      (fun x => (deprecations x.2, match x.1 with | .ok _ => 0 | .error es => es.length)) =
    some ([(⟨3, 1⟩, "old", "User")], 1) ∧
    IsComposite Demo.schema "Query" := by decide +kernel

/-- The demo query uses one deprecated field, inside an inline fragment. -/
example : (Operation.compile .inOrder 5 Demo.ctx Demo.query).map (fun x => deprecations x.2) =
    some [(⟨7, 24⟩, "old", "User")] := by decide +kernel

end Qlc
