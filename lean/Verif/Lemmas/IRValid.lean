import Verif.Lemmas.IRTree
import Mathlib.Data.List.Nodup
/-
Validity, reported errors, and compiling a definition.
-/
set_option autoImplicit false

namespace Qlc
open Spec

variable {schema : Schema} {frags : Frags}

theorem checkSels_flatMap (loc : Bool) (P : String) (items : List Selection) :
    checkSels schema frags loc P items = items.flatMap (checkSel schema frags loc P) := by
  induction items with
  | nil => simp [checkSels]
  | cons s items ih => simp [checkSels, ih]

theorem invalid_flatMap (P : String) (items : List Selection) :
    invalidSelections schema frags P items = items.flatMap (invalidSel schema frags P) := by
  induction items with
  | nil => simp [invalidSelections]
  | cons s items ih => simp [invalidSelections, ih]

theorem warnSels_flatMap (showDep : Bool) (P : String) (N : List String) (items : List Selection) :
    warnSels schema frags showDep P N items = items.flatMap (warnSel schema frags showDep P N) := by
  induction items with
  | nil => simp [warnSels]
  | cons s items ih => simp [warnSels, ih]

mutual
theorem invalidSel_sound (P : String) : ∀ (s : Selection) (N : List String) (items : List Selection)
    (P' : String) (sel : Selection), s ∈ items → (P', sel) ∈ invalidSel schema frags P s →
    ∃ N', Occurs schema P N items P' N' sel ∧ ¬ SelOk schema frags P' sel
  | .field pos al name args dirs sub => by
    intro N items P' sel hs h
    unfold invalidSel at h
    cases hf : fieldOf schema P name with
    | none =>
      rw [hf] at h
      simp only [List.mem_singleton, Prod.mk.injEq] at h
      obtain ⟨rfl, rfl⟩ := h
      refine ⟨N, .here hs, ?_⟩
      rintro ⟨f, hf', _⟩
      rw [hf] at hf'; simp at hf'
    | some f =>
      rw [hf] at h
      simp only at h
      by_cases hc : IsComposite schema f.type.name
      · rw [if_pos hc] at h
        by_cases he : sub.isEmpty = true
        · rw [if_pos he] at h
          simp only [List.mem_singleton, Prod.mk.injEq] at h
          obtain ⟨rfl, rfl⟩ := h
          refine ⟨N, .here hs, ?_⟩
          rintro ⟨f', hf', hi⟩
          rw [hf] at hf'
          injection hf' with e
          subst e
          exact hi.2 hc (List.isEmpty_iff.1 he)
        · rw [if_neg he] at h
          obtain ⟨N', ho, hbad⟩ := invalidSels_sound f.type.name sub
            (possibleTypes schema f.type.name) P' sel h
          exact ⟨N', .field hs hf hc ho, hbad⟩
      · rw [if_neg hc] at h
        by_cases he : sub.isEmpty = true
        · rw [if_pos he] at h; simp at h
        · rw [if_neg he] at h
          simp only [List.mem_singleton, Prod.mk.injEq] at h
          obtain ⟨rfl, rfl⟩ := h
          refine ⟨N, .here hs, ?_⟩
          rintro ⟨f', hf', hi⟩
          rw [hf] at hf'
          injection hf' with e
          subst e
          exact hc (hi.1 (fun hn => he (List.isEmpty_iff.2 hn)))
  | .inline pos none dirs sub => by
    intro N items P' sel hs h
    unfold invalidSel at h
    simp only [List.mem_singleton, Prod.mk.injEq] at h
    obtain ⟨rfl, rfl⟩ := h
    refine ⟨N, .here hs, ?_⟩
    rintro ⟨C, hC, _⟩
    simp at hC
  | .inline pos (some C) dirs sub => by
    intro N items P' sel hs h
    unfold invalidSel at h
    by_cases hc : IsComposite schema C
    · rw [if_pos hc] at h
      obtain ⟨N', ho, hbad⟩ := invalidSels_sound C sub _ P' sel h
      exact ⟨N', .inline hs hc ho, hbad⟩
    · rw [if_neg hc] at h
      simp only [List.mem_singleton, Prod.mk.injEq] at h
      obtain ⟨rfl, rfl⟩ := h
      refine ⟨N, .here hs, ?_⟩
      rintro ⟨C', hC, hc'⟩
      injection hC with e
      subst e
      exact hc hc'
  | .spread pos name dirs => by
    intro N items P' sel hs h
    unfold invalidSel at h
    cases hg : AMap.get? frags name with
    | none =>
      rw [hg] at h
      simp only [Option.isSome_none, Bool.false_eq_true, if_false, List.mem_singleton,
        Prod.mk.injEq] at h
      obtain ⟨rfl, rfl⟩ := h
      refine ⟨N, .here hs, ?_⟩
      rintro ⟨fd, hfd⟩
      rw [hg] at hfd; simp at hfd
    | some fd => rw [hg] at h; simp at h
theorem invalidSels_sound (P : String) : ∀ (ss : List Selection) (N : List String) (P' : String)
    (sel : Selection), (P', sel) ∈ invalidSelections schema frags P ss →
    ∃ N', Occurs schema P N ss P' N' sel ∧ ¬ SelOk schema frags P' sel
  | [] => by intro N P' sel h; simp [invalidSelections] at h
  | s :: rest => by
    intro N P' sel h
    simp only [invalidSelections, List.mem_append] at h
    rcases h with h | h
    · exact invalidSel_sound P s N (s :: rest) P' sel (List.mem_cons_self ..) h
    · obtain ⟨N', ho, hbad⟩ := invalidSels_sound P rest N P' sel h
      refine ⟨N', ?_, hbad⟩
      cases ho with
      | here h => exact .here (List.mem_cons_of_mem _ h)
      | field h1 h2 h3 h4 => exact .field (List.mem_cons_of_mem _ h1) h2 h3 h4
      | «inline» h1 h2 h3 => exact .inline (List.mem_cons_of_mem _ h1) h2 h3
end

theorem invalid_complete {P : String} {N : List String} {items : List Selection} {P' : String}
    {N' : List String} {sel : Selection} (h : Occurs schema P N items P' N' sel) :
    ¬ SelOk schema frags P' sel → (P', sel) ∈ invalidSelections schema frags P items := by
  induction h with
  | @here P N items sel hs =>
    intro hbad
    rw [invalid_flatMap]
    refine List.mem_flatMap.2 ⟨sel, hs, ?_⟩
    cases sel with
    | field pos al name args dirs sub =>
      unfold invalidSel
      cases hf : fieldOf schema P name with
      | none => simp
      | some f =>
        simp only
        by_cases hc : IsComposite schema f.type.name
        · rw [if_pos hc]
          by_cases he : sub.isEmpty = true
          · rw [if_pos he]; simp
          · exact absurd ⟨f, hf, fun _ => hc, fun _ hn => he (List.isEmpty_iff.2 hn)⟩ hbad
        · rw [if_neg hc]
          by_cases he : sub.isEmpty = true
          · exact absurd ⟨f, hf, fun hn => absurd (List.isEmpty_iff.1 he) hn, fun h => absurd h hc⟩ hbad
          · rw [if_neg he]; simp
    | «inline» pos cond dirs sub =>
      cases cond with
      | none => unfold invalidSel; simp
      | some C =>
        unfold invalidSel
        by_cases hc : IsComposite schema C
        · exact absurd ⟨C, rfl, hc⟩ hbad
        · rw [if_neg hc]; simp
    | spread pos name dirs =>
      unfold invalidSel
      cases hg : AMap.get? frags name with
      | none => simp
      | some fd => exact absurd ⟨fd, hg⟩ hbad
  | @field P N items P' N' sel pos al name args dirs sub f h1 h2 h3 _ ih =>
    intro hbad
    have := ih hbad
    rw [invalid_flatMap]
    refine List.mem_flatMap.2 ⟨_, h1, ?_⟩
    unfold invalidSel
    rw [h2]
    simp only
    rw [if_pos h3]
    have he : ¬ sub.isEmpty = true := by
      intro he
      rw [List.isEmpty_iff.1 he] at this
      simp [invalidSelections] at this
    rw [if_neg he]
    exact this
  | @«inline» P N items P' N' sel pos C dirs sub h1 h2 _ ih =>
    intro hbad
    have := ih hbad
    rw [invalid_flatMap]
    refine List.mem_flatMap.2 ⟨_, h1, ?_⟩
    unfold invalidSel
    rw [if_pos h2]
    exact this

theorem mem_invalid_iff (P : String) (N : List String) (items : List Selection) (P' : String)
    (sel : Selection) : (P', sel) ∈ invalidSelections schema frags P items ↔
      ∃ N', Occurs schema P N items P' N' sel ∧ ¬ SelOk schema frags P' sel :=
  ⟨invalidSels_sound P items N P' sel, fun ⟨_, h1, h2⟩ => invalid_complete h1 h2⟩

theorem valid_iff (P : String) (items : List Selection) :
    Valid schema frags P items ↔ invalidSelections schema frags P items = [] := by
  constructor
  · intro h
    rw [List.eq_nil_iff_forall_not_mem]
    rintro ⟨P', sel⟩ hm
    obtain ⟨N', h1, h2⟩ := (mem_invalid_iff P (possibleTypes schema P) items P' sel).1 hm
    exact h2 (h _ _ _ h1)
  · intro h P' N' sel ho
    by_contra hbad
    have := invalid_complete (frags := frags) ho hbad
    rw [h] at this
    simp at this

/-- An expected error stands for every error that only differs in the offered names. -/
def StandsFor (schema : Schema) (frags : Frags) (x : String × Selection) (e₀ : IrError) : Prop :=
  ∀ e, e.strip = e₀ → GoodNames schema frags e → Reports schema frags x.1 x.2 e

theorem strip_eq_unknownField {e : IrError} {P n : String} {pos : Pos}
    (h : e.strip = .unknownField P n pos []) : ∃ ns, e = .unknownField P n pos ns := by
  cases e <;> simp [IrError.strip] at h
  obtain ⟨rfl, rfl, rfl⟩ := h
  exact ⟨_, rfl⟩

theorem strip_eq_unknownFragment {e : IrError} {n : String} {pos : Pos}
    (h : e.strip = .unknownFragment n pos []) : ∃ ns, e = .unknownFragment n pos ns := by
  cases e <;> simp [IrError.strip] at h
  obtain ⟨rfl, rfl⟩ := h
  exact ⟨_, rfl⟩

theorem standsFor_condition {P C : String} {pos : Pos} {dirs : List Directive} {sub : List Selection}
    (h : ¬ IsComposite schema C) :
    StandsFor schema frags (P, .inline pos (some C) dirs sub) (conditionError schema C pos) := by
  intro e he _
  unfold IsComposite fieldsOf at h
  unfold conditionError at he
  cases ht : schema.getType C with
  | none =>
    rw [ht] at he
    simp only at he
    have : e = .missingType C := by cases e <;> simp_all [IrError.strip]
    subst this
    exact .unknownType ht
  | some t =>
    rw [ht] at he h
    simp only at he h
    cases hd : t.definition with
    | inputObject n fl =>
      rw [hd] at he
      have : e = .unexpectedComplexTraversal C := by cases e <;> simp_all [IrError.strip]
      subst this
      exact .inputType ht hd
    | enum vs =>
      rw [hd] at he
      have : e = .selectionSetOnWrongType C pos := by cases e <;> simp_all [IrError.strip]
      subst this
      exact .enumType ht hd
    | scalar n =>
      rw [hd] at he
      have : e = .selectionSetOnWrongType C pos := by cases e <;> simp_all [IrError.strip]
      subst this
      exact .scalarType ht hd
    | object fl => rw [hd] at h; simp at h
    | interface n fl ps => rw [hd] at h; simp at h
    | union n ps fl => rw [hd] at h; simp at h

mutual
theorem check_standsFor (hcon : Consistent schema) (P : String) : ∀ s : Selection,
    List.Forall₂ (StandsFor schema frags) (invalidSel schema frags P s) (checkSel schema frags true P s)
  | .field pos al name args dirs sub => by
    unfold invalidSel checkSel
    cases hf : fieldOf schema P name with
    | none =>
      refine .cons ?_ .nil
      intro e he hg
      obtain ⟨ns, rfl⟩ := strip_eq_unknownField he
      obtain ⟨fl, h1, h2⟩ := hg
      refine .unknownField h1 ?_ h2
      unfold fieldOf at hf
      rw [h1] at hf
      exact hf
    | some f =>
      obtain ⟨_, hcc⟩ := hcon P name f hf
      simp only
      by_cases hc : IsComposite schema f.type.name
      · rw [if_pos hc, if_pos (hcc.2 hc)]
        by_cases he : sub.isEmpty = true
        · rw [if_pos he, if_pos he]
          refine .cons ?_ .nil
          intro e hs _
          have : e = .missingSelectionSetOnType f.type.name pos := by
            cases e <;> simp_all [IrError.strip]
          subst this
          have : sub = [] := List.isEmpty_iff.1 he
          subst this
          exact .missingSelections hf hc
        · rw [if_neg he, if_neg he]
          exact checks_standsFor hcon f.type.name sub
      · rw [if_neg hc, if_neg (fun h => hc (hcc.1 h))]
        by_cases he : sub.isEmpty = true
        · rw [if_pos he, if_pos he]; exact .nil
        · rw [if_neg he, if_neg he]
          refine .cons ?_ .nil
          intro e hs _
          have : e = .selectionSetOnWrongType f.type.name pos := by
            cases e <;> simp_all [IrError.strip]
          subst this
          exact .selectionsOnLeaf hf hc (fun hn => he (List.isEmpty_iff.2 hn))
  | .inline pos none dirs sub => by
    unfold invalidSel checkSel
    refine .cons ?_ .nil
    intro e hs _
    have : e = .missingTypeConditionOnInlineFragment pos := by cases e <;> simp_all [IrError.strip]
    subst this
    exact .noCondition
  | .inline pos (some C) dirs sub => by
    unfold invalidSel checkSel
    rw [if_pos rfl]
    by_cases hc : IsComposite schema C
    · rw [if_pos hc, if_pos (show (fieldsOf schema C).isSome = true from hc)]
      exact checks_standsFor hcon C sub
    · rw [if_neg hc, if_neg (show ¬ (fieldsOf schema C).isSome = true from hc)]
      exact .cons (standsFor_condition hc) .nil
  | .spread pos name dirs => by
    unfold invalidSel checkSel
    cases hg : AMap.get? frags name with
    | some fd => exact .nil
    | none =>
      refine .cons ?_ .nil
      intro e hs hgn
      obtain ⟨ns, rfl⟩ := strip_eq_unknownFragment hs
      exact .unknownFragment hg hgn
theorem checks_standsFor (hcon : Consistent schema) (P : String) : ∀ ss : List Selection,
    List.Forall₂ (StandsFor schema frags) (invalidSelections schema frags P ss)
      (checkSels schema frags true P ss)
  | [] => by unfold invalidSelections checkSels; exact .nil
  | s :: rest => by
    unfold invalidSelections checkSels
    exact List.rel_append (check_standsFor hcon P s) (checks_standsFor hcon P rest)
end

/-- Reported errors and invalid selections correspond one to one, in document order. -/
theorem errs_report (hcon : Consistent schema) {P : String} {items : List Selection}
    {es : List IrError} (h : ErrsOk schema frags es (checkSels schema frags true P items)) :
    List.Forall₂ (fun (x : String × Selection) e => Reports schema frags x.1 x.2 e)
      (invalidSelections schema frags P items) es := by
  have h1 := checks_standsFor (frags := frags) hcon P items
  rw [← h.1, List.forall₂_map_right_iff] at h1
  have h2 := h.2
  clear h
  revert h2
  generalize invalidSelections schema frags P items = inv at h1
  induction h1 with
  | nil => intro _; exact .nil
  | cons a _ ih =>
    intro h2
    exact .cons (a _ rfl (h2 _ (List.mem_cons_self ..)))
      (ih (fun e he => h2 e (List.mem_cons_of_mem _ he)))

theorem check_nil_iff (hcon : Consistent schema) (P : String) (items : List Selection) :
    checkSels schema frags true P items = [] ↔ Valid schema frags P items := by
  rw [valid_iff]
  have h := checks_standsFor (frags := frags) hcon P items
  constructor
  · intro hc; rw [hc] at h; exact List.forall₂_nil_right_iff.1 h
  · intro hc; rw [hc] at h; exact List.forall₂_nil_left_iff.1 h

/-! ### Collected fields -/

/-- What is collected is determined. -/
theorem collX_functional {T : String} {loc : Bool} {P : String} {items : List Selection}
    {L : List Contribution} (h : CollX schema frags T loc P items L) :
    ∀ L', CollX schema frags T loc P items L' → L = L' := by
  induction h with
  | nil => intro L' h; cases h; rfl
  | field h1 h2 _ ih =>
    intro L' h
    cases h with
    | field _ h2' h3 => rw [h2] at h2'; injection h2' with e; rw [ih _ h3, e]
    | fieldBad h1' _ => exact absurd h1 h1'
  | fieldBad h1 _ ih =>
    intro L' h
    cases h with
    | field h1' _ _ => exact absurd h1' h1
    | fieldBad _ h3 => exact ih _ h3
  | inlineIn h1 h2 _ _ ih1 ih2 =>
    intro L' h
    cases h with
    | inlineIn _ _ h3 h4 => rw [ih1 _ h3, ih2 _ h4]
    | inlineOut h3 _ => exact absurd h2 (h3 _ rfl h1)
  | inlineOut h1 _ ih =>
    intro L' h
    cases h with
    | inlineIn h2 h3 _ _ => exact absurd h3 (h1 _ rfl h2)
    | inlineOut _ h3 => exact ih _ h3
  | spreadIn h1 h2 h3 _ _ ih1 ih2 =>
    intro L' h
    cases h with
    | spreadIn h1' _ _ h4 h5 =>
      rw [h1] at h1'; injection h1' with e; subst e
      rw [ih1 _ h4, ih2 _ h5]
    | spreadOut h4 _ => exact absurd h3 (h4 _ h1 h2)
  | spreadOut h1 _ ih =>
    intro L' h
    cases h with
    | spreadIn h1' h2 h3 _ _ => exact absurd h3 (h1 _ h1' h2)
    | spreadOut _ h3 => exact ih _ h3

theorem forall₂_functional {α β : Type} {R : α → β → Prop} (hR : ∀ a b b', R a b → R a b' → b = b')
    {l : List α} {m m' : List β} (h : List.Forall₂ R l m) (h' : List.Forall₂ R l m') : m = m' := by
  induction h generalizing m' with
  | nil => cases h'; rfl
  | cons a _ ih => cases h' with | cons a' h' => rw [hR _ _ _ a a', ih h']

/-- Collectors that yield at most one result. -/
def Functional (coll : Collector) : Prop :=
  ∀ T P sets L L', coll T P sets L → coll T P sets L' → L = L'

theorem collectorX_functional : Functional (collectorX schema frags) := by
  rintro T P sets L L' ⟨Ls, h, rfl⟩ ⟨Ls', h', rfl⟩
  have e : Ls = Ls' := forall₂_functional (R := CollX schema frags T false P)
    (fun _ _ _ h1 h2 => collX_functional h1 _ h2) h h'
  rw [e]

theorem collX_coll (hcon : Consistent schema) (hfr : FragsValid schema frags) {T : String} {loc : Bool}
    {P : String} {items : List Selection} {L : List Contribution}
    (h : CollX schema frags T loc P items L) : checkSels schema frags true P items = [] →
    Coll schema frags T P items L ∧ ∀ c ∈ L, c.field.type.definition.isComplex = true →
      checkSels schema frags true c.field.type.name c.items = [] := by
  induction h with
  | nil => intro _; exact ⟨.nil, by simp⟩
  | @field loc P pos al name args dirs items rest f L h1 h2 _ ih =>
    intro hc
    simp only [checkSels, List.append_eq_nil_iff] at hc
    obtain ⟨i1, i2⟩ := ih hc.2
    refine ⟨.field h2 i1, ?_⟩
    intro c hm
    rcases List.mem_cons.1 hm with rfl | hm
    · intro hcx
      have := hc.1
      unfold checkSel at this
      rw [h2] at this
      simp only at this
      have hcx' : f.type.definition.isComplex = true := hcx
      rw [if_pos hcx'] at this
      split at this
      · simp at this
      · exact this
    · exact i2 c hm
  | @fieldBad loc P pos al name args dirs items rest L h1 _ _ =>
    intro hc
    simp only [checkSels, List.append_eq_nil_iff] at hc
    cases loc with
    | true => exact absurd hc.1 h1
    | false => exact absurd (checkSel_false _ _ hc.1) h1
  | @inlineIn loc P C pos dirs items rest L₁ L h1 h2 _ _ ih1 ih2 =>
    intro hc
    simp only [checkSels, List.append_eq_nil_iff] at hc
    have hcC : checkSels schema frags true C items = [] := by
      have := hc.1
      unfold checkSel at this
      rw [if_pos rfl] at this
      split at this
      · exact this
      · simp at this
    obtain ⟨i1, i2⟩ := ih1 hcC
    obtain ⟨j1, j2⟩ := ih2 hc.2
    refine ⟨.inlineIn h1 i1 j1, ?_⟩
    intro c hm
    rcases List.mem_append.1 hm with hm | hm
    · exact i2 c hm
    · exact j2 c hm
  | @inlineOut loc P cond pos dirs items rest L h1 _ ih =>
    intro hc
    simp only [checkSels, List.append_eq_nil_iff] at hc
    obtain ⟨i1, i2⟩ := ih hc.2
    cases cond with
    | none => have := hc.1; unfold checkSel at this; simp at this
    | some C =>
      have hcC : checkSels schema frags true C items = [] := by
        have := hc.1
        unfold checkSel at this
        rw [if_pos rfl] at this
        split at this
        · exact this
        · simp at this
      refine ⟨.inlineOut ?_ i1, i2⟩
      intro hT
      refine h1 C rfl hT ?_
      cases loc with
      | true => exact hcC
      | false => exact checkSels_false _ _ hcC
  | spreadIn h1 h2 h3 _ _ ih1 ih2 =>
    intro hc
    simp only [checkSels, List.append_eq_nil_iff] at hc
    obtain ⟨i1, i2⟩ := ih1 ((check_nil_iff hcon _ _).2 (hfr _ _ h1).2)
    obtain ⟨j1, j2⟩ := ih2 hc.2
    refine ⟨.spreadIn h1 h2 i1 j1, ?_⟩
    intro c hm
    rcases List.mem_append.1 hm with hm | hm
    · exact i2 c hm
    · exact j2 c hm
  | @spreadOut loc P pos name dirs rest L h1 _ ih =>
    intro hc
    simp only [checkSels, List.append_eq_nil_iff] at hc
    obtain ⟨i1, i2⟩ := ih hc.2
    cases hg : AMap.get? frags name with
    | none => have := hc.1; unfold checkSel at this; rw [hg] at this; simp at this
    | some fd =>
      refine ⟨.spreadOut hg ?_ i1, i2⟩
      intro hT
      exact h1 fd hg hT (checkSels_false _ _ ((check_nil_iff hcon _ _).2 (hfr _ _ hg).2))

theorem collManyX_collMany (hcon : Consistent schema) (hfr : FragsValid schema frags) {T P : String}
    {sets : List (List Selection)} {L : List Contribution} (h : CollManyX schema frags T P sets L)
    (hv : ∀ s ∈ sets, checkSels schema frags true P s = []) :
    CollMany schema frags T P sets L ∧ ∀ c ∈ L, c.field.type.definition.isComplex = true →
      checkSels schema frags true c.field.type.name c.items = [] := by
  obtain ⟨Ls, hF, rfl⟩ := h
  revert hv
  induction hF with
  | nil => intro _; exact ⟨⟨[], .nil, rfl⟩, by simp⟩
  | @cons a b as bs h1 _ ih =>
    intro hv
    obtain ⟨⟨Ls, i1, i2⟩, i3⟩ := ih (fun s hs => hv s (List.mem_cons_of_mem _ hs))
    obtain ⟨j1, j2⟩ := collX_coll hcon hfr h1 (hv _ (List.mem_cons_self ..))
    refine ⟨⟨b :: Ls, .cons j1 i1, by simp [i2]⟩, ?_⟩
    intro c hm
    rw [List.flatten_cons, List.mem_append] at hm
    rcases hm with hm | hm
    · exact j2 c hm
    · exact i3 c hm

theorem fieldsAre_mono {D D' : String → List (List Selection) → List Complex → Prop}
    {L : List Contribution} {fields : List IRField}
    (hD : ∀ (tn : String) (cs : List Contribution) (ps : List Complex), (∀ c ∈ cs, c ∈ L) → (∀ c ∈ cs, c.field.type.name = tn) →
      (∃ c ∈ cs, c.field.type.definition.isComplex = true) →
      D tn (cs.map Contribution.items) ps → D' tn (cs.map Contribution.items) ps)
    (h : FieldsAre D L fields) : FieldsAre D' L fields := by
  obtain ⟨h1, slots, h2, h3, h4⟩ := h
  refine ⟨h1, slots, h2, h3, h4.imp ?_⟩
  rintro s fld ⟨c, rest, e, k1, k2, k3, k4, k5, k6⟩
  refine ⟨c, rest, e, k1, k2, k3, k4, k5, ?_⟩
  cases hty : fld.type with
  | complex sub =>
    rw [hty] at k6
    refine ⟨k6.1, ?_⟩
    have hin : c ∈ sameSlot L s.1 s.2 := by rw [e]; exact List.mem_cons_self ..
    have hsl : ∀ c' ∈ sameSlot L s.1 s.2, c'.field.type.name = s.2 := by
      intro c' hc'
      exact (of_decide_eq_true (List.mem_filter.1 hc').2).2
    refine hD _ _ _ (fun c' hc' => (List.mem_filter.1 hc').1) ?_ ⟨c, hin, k6.1⟩ k6.2
    intro c' hc'
    rw [hsl c' hc', hsl c hin]
  | typeName => rw [hty] at k6; exact k6
  | enum n => rw [hty] at k6; exact k6
  | scalar s => rw [hty] at k6; exact k6

theorem coll_field {T P : String} {items : List Selection} {L : List Contribution}
    (h : Coll schema frags T P items L) : ∀ c ∈ L, ∃ P' name, fieldOf schema P' name = some c.field := by
  induction h with
  | nil => simp
  | field h1 _ ih =>
    intro c hm
    rcases List.mem_cons.1 hm with rfl | hm
    · exact ⟨_, _, h1⟩
    · exact ih c hm
  | inlineIn _ _ _ ih1 ih2 =>
    intro c hm
    rcases List.mem_append.1 hm with hm | hm
    · exact ih1 c hm
    · exact ih2 c hm
  | inlineOut _ _ ih => exact ih
  | spreadIn _ _ _ _ ih1 ih2 =>
    intro c hm
    rcases List.mem_append.1 hm with hm | hm
    · exact ih1 c hm
    · exact ih2 c hm
  | spreadOut _ _ _ ih => exact ih

theorem collMany_field {T P : String} {sets : List (List Selection)} {L : List Contribution}
    (h : CollMany schema frags T P sets L) :
    ∀ c ∈ L, ∃ P' name, fieldOf schema P' name = some c.field := by
  obtain ⟨Ls, hF, rfl⟩ := h
  induction hF with
  | nil => simp
  | cons h1 _ ih =>
    intro c hm
    rw [List.flatten_cons, List.mem_append] at hm
    rcases hm with hm | hm
    · exact coll_field h1 c hm
    · exact ih c hm

/-- With valid fragments, the tree is that of GraphQL's field collection. -/
theorem treeX_tree (hcon : Consistent schema) (hfr : FragsValid schema frags) (n : Nat) :
    ∀ (P : String) (sets : List (List Selection)) (ps : List Complex),
    (∀ s ∈ sets, checkSels schema frags true P s = []) →
    TreeIs schema (collectorX schema frags) n P sets ps →
    TreeIs schema (CollMany schema frags) n P sets ps := by
  induction n with
  | zero => intro P sets ps _ _; trivial
  | succ n ih =>
    intro P sets ps hv h
    refine ⟨h.1, h.2.1, ?_⟩
    intro T fields hm
    obtain ⟨L, hL, hF⟩ := h.2.2 T fields hm
    obtain ⟨hL', hsub⟩ := collManyX_collMany hcon hfr hL hv
    refine ⟨L, hL', fieldsAre_mono ?_ hF⟩
    intro tn cs ps hin htn hc hD
    refine ih _ _ _ ?_ hD
    intro s hs
    obtain ⟨c, hc1, rfl⟩ := List.mem_map.1 hs
    obtain ⟨c', hc1', hc2'⟩ := hc
    have hcomp : IsComposite schema tn := by
      obtain ⟨P', name, hf⟩ := collMany_field hL' c' (hin c' hc1')
      have := ((hcon P' name _ hf).2).1 hc2'
      rwa [htn c' hc1'] at this
    have hcc : c.field.type.definition.isComplex = true := by
      obtain ⟨P', name, hf⟩ := collMany_field hL' c (hin c hc1)
      refine ((hcon P' name _ hf).2).2 ?_
      rw [htn c hc1]; exact hcomp
    have := hsub c (hin c hc1) hcc
    rwa [htn c hc1] at this

/-! ### The tree is determined -/

theorem nodup_of_strict {l : List String} (h : l.Pairwise (· < ·)) : l.Nodup := by
  refine List.Pairwise.imp ?_ h
  intro a b hab he
  subst he
  exact String.lt_irrefl _ hab

theorem str_le_of_lt {a b : String} (h : a < b) : a ≤ b := by
  rcases str_le_total a b with h' | h'
  · exact h'
  · exact absurd h (String.not_lt.2 h')

theorem strictSorted_ext : ∀ {l m : List String}, l.Pairwise (· < ·) → m.Pairwise (· < ·) →
    (∀ x, x ∈ l ↔ x ∈ m) → l = m := by
  intro l m hl hm h
  have hp : l.Perm m := (List.perm_ext_iff_of_nodup (nodup_of_strict hl) (nodup_of_strict hm)).2 h
  refine List.Perm.eq_of_pairwise (le := fun (a b : String) => a ≤ b) ?_
    (hl.imp str_le_of_lt) (hm.imp str_le_of_lt) hp
  intro a b _ _ hab hba
  exact str_le_antisymm hab hba

theorem mem_distinctPoss : ∀ {ps : List Complex} {T : String} {fields : List IRField},
    DistinctPoss ps → Complex.mk T fields ∈ ps →
    (fields.map IRField.propName).Nodup ∧ DistinctFields fields
  | [], _, _, _, h => by simp at h
  | c :: cs, T, fields, hd, h => by
    unfold DistinctPoss at hd
    rcases List.mem_cons.1 h with rfl | h
    · have := hd.1; unfold DistinctComplex at this; exact this
    · exact mem_distinctPoss hd.2 h

theorem mem_distinctFields : ∀ {fs : List IRField} {f : IRField}, DistinctFields fs → f ∈ fs →
    DistinctType f.type
  | [], _, _, h => by simp at h
  | g :: gs, f, hd, h => by
    unfold DistinctFields at hd
    rcases List.mem_cons.1 h with rfl | h
    · obtain ⟨a, b, c, d, e, t⟩ := f
      have := hd.1; unfold DistinctField at this; exact this
    · exact mem_distinctFields hd.2 h

theorem sizeOf_sub {ps sub : List Complex} {T : String} {fields : List IRField} {f : IRField}
    (h1 : Complex.mk T fields ∈ ps) (h2 : f ∈ fields) (h3 : f.type = .complex sub) :
    sizeOf sub < sizeOf ps := by
  have a := List.sizeOf_lt_of_mem h1
  have b := List.sizeOf_lt_of_mem h2
  obtain ⟨p, d, dep, l, r, t⟩ := f
  have h3 : t = .complex sub := h3
  subst h3
  simp only [Complex.mk.sizeOf_spec, IRField.mk.sizeOf_spec, IRType.complex.sizeOf_spec] at a b
  omega

theorem irField_ext {a b : IRField} (h1 : a.propName = b.propName)
    (h2 : a.documentation = b.documentation) (h3 : a.deprecated = b.deprecated) (h4 : a.last = b.last)
    (h5 : a.rest = b.rest) (h6 : a.type = b.type) : a = b := by
  obtain ⟨p, d, dep, l, r, t⟩ := a
  obtain ⟨p', d', dep', l', r', t'⟩ := b
  simp only [IRField.propName, IRField.documentation, IRField.deprecated, IRField.last, IRField.rest,
    IRField.type] at *
  subst h1 h2 h3 h4 h5 h6
  rfl

theorem forall₂_mem {α β : Type} {R : α → β → Prop} {l : List α} {m : List β}
    (h : List.Forall₂ R l m) : ∀ b ∈ m, ∃ a ∈ l, R a b := by
  induction h with
  | nil => simp
  | cons a _ ih =>
    intro b hb
    rcases List.mem_cons.1 hb with rfl | hb
    · exact ⟨_, List.mem_cons_self .., a⟩
    · obtain ⟨x, hx, hR⟩ := ih b hb
      exact ⟨x, List.mem_cons_of_mem _ hx, hR⟩

theorem forall₂_mem_left {α β : Type} {R : α → β → Prop} {l : List α} {m : List β}
    (h : List.Forall₂ R l m) : ∀ a ∈ l, ∃ b ∈ m, R a b := by
  induction h with
  | nil => simp
  | cons a _ ih =>
    intro b hb
    rcases List.mem_cons.1 hb with rfl | hb
    · exact ⟨_, List.mem_cons_self .., a⟩
    · obtain ⟨x, hx, hR⟩ := ih b hb
      exact ⟨x, List.mem_cons_of_mem _ hx, hR⟩

/-- The key of a generated property is that of its slot. -/
theorem fieldIs_key {D : String → List (List Selection) → List Complex → Prop} {L : List Contribution}
    {s : String × String} {fld : IRField} (h : FieldIs D (sameSlot L s.1 s.2) fld) :
    fld.propName = s.1 := by
  obtain ⟨c, rest, e, k1, _⟩ := h
  have hin : c ∈ sameSlot L s.1 s.2 := by rw [e]; exact List.mem_cons_self ..
  rw [k1]
  exact (of_decide_eq_true (List.mem_filter.1 hin).2).1

theorem keys_of_fields {D : String → List (List Selection) → List Complex → Prop}
    {L : List Contribution} {slots : List (String × String)} {fields : List IRField}
    (h : List.Forall₂ (fun s fld => FieldIs D (sameSlot L s.1 s.2) fld) slots fields) :
    slots.map Prod.fst = fields.map IRField.propName := by
  induction h with
  | nil => rfl
  | cons a _ ih => simp only [List.map_cons, fieldIs_key a, ih]

/-- Two trees of the same selections are equal if one of them lists no property twice. -/
theorem tree_unique {coll : Collector} (hfun : Functional coll) (n : Nat) :
    ∀ (P : String) (sets : List (List Selection)) (ps ps' : List Complex), sizeOf ps ≤ n →
    DistinctPoss ps → TreeIs schema coll (n + 1) P sets ps → TreeIs schema coll (n + 1) P sets ps' →
    ps = ps' := by
  induction n with
  | zero =>
    intro P sets ps ps' hs
    exfalso
    cases ps <;> simp at hs
  | succ n ih =>
    intro P sets ps ps' hs hd h h'
    have hnames : ps.map Complex.name = ps'.map Complex.name :=
      strictSorted_ext h.1 h'.1 (fun T => by rw [h.2.1, h'.2.1])
    have hone : ∀ T fields fields', Complex.mk T fields ∈ ps → Complex.mk T fields' ∈ ps' →
        fields = fields' := by
      intro T fields fields' hm hm'
      obtain ⟨L, hL, hsort, slots, hn, hsl, hF⟩ := h.2.2 T fields hm
      obtain ⟨L', hL', hsort', slots', hn', hsl', hF'⟩ := h'.2.2 T fields' hm'
      have e := hfun _ _ _ _ _ hL hL'
      subst e
      obtain ⟨hdk, hdf⟩ := mem_distinctPoss hd hm
      have hk := keys_of_fields hF
      have hk' := keys_of_fields hF'
      have hpslots : slots.Perm slots' :=
        (List.perm_ext_iff_of_nodup hn hn').2 (fun s => by rw [hsl, hsl'])
      have hpk : (fields.map IRField.propName).Perm (fields'.map IRField.propName) := by
        rw [← hk, ← hk']; exact hpslots.map _
      have hinj : ∀ s ∈ slots, ∀ s' ∈ slots, s.1 = s'.1 → s = s' := by
        rw [← hk] at hdk
        exact fun s hs s' hs' he => List.inj_on_of_nodup_map hdk hs hs' he
      have hsame : ∀ f ∈ fields, ∀ f' ∈ fields', f.propName = f'.propName → f = f' := by
        intro f hf f' hf' he
        obtain ⟨s, hs1, hR⟩ := forall₂_mem hF f hf
        obtain ⟨s', hs1', hR'⟩ := forall₂_mem hF' f' hf'
        have hss : s = s' := by
          refine hinj s hs1 s' (hpslots.mem_iff.2 hs1') ?_
          rw [← fieldIs_key hR, ← fieldIs_key hR', he]
        subst hss
        obtain ⟨c, rest, e1, k1, k2, k3, k4, k5, k6⟩ := hR
        obtain ⟨c', rest', e1', k1', k2', k3', k4', k5', k6'⟩ := hR'
        rw [e1] at e1'
        injection e1' with ec er
        subst ec er
        refine irField_ext he (by rw [k2, k2']) (by rw [k3, k3']) (by rw [k4, k4']) (by rw [k5, k5']) ?_
        cases hty : f.type with
        | complex sub =>
          cases hty' : f'.type with
          | complex sub' =>
            rw [hty] at k6; rw [hty'] at k6'
            have hlt := sizeOf_sub hm hf hty
            have hds := mem_distinctFields hdf hf
            rw [hty] at hds
            unfold DistinctType at hds
            rw [ih _ _ sub sub' (by omega) hds k6.2 k6'.2]
          | typeName =>
            rw [hty] at k6; rw [hty'] at k6'
            have a := k6.1; have b : c.field.type.definition = .typeName := k6'
            rw [b] at a; simp [FieldTypeDef.isComplex] at a
          | enum n =>
            rw [hty] at k6; rw [hty'] at k6'
            have a := k6.1; rw [k6'.1] at a; simp [FieldTypeDef.isComplex] at a
          | scalar s =>
            rw [hty] at k6; rw [hty'] at k6'
            have a := k6.1; have b : c.field.type.definition = .scalar s := k6'
            rw [b] at a; simp [FieldTypeDef.isComplex] at a
        | typeName =>
          rw [hty] at k6
          have b : c.field.type.definition = .typeName := k6
          cases hty' : f'.type with
          | complex sub' =>
            rw [hty'] at k6'
            have a := k6'.1; rw [b] at a; simp [FieldTypeDef.isComplex] at a
          | typeName => rfl
          | enum n => rw [hty'] at k6'; have a := k6'.1; rw [b] at a; simp at a
          | scalar s =>
            rw [hty'] at k6'
            have a : c.field.type.definition = .scalar s := k6'
            rw [b] at a; simp at a
        | enum n =>
          rw [hty] at k6
          cases hty' : f'.type with
          | complex sub' =>
            rw [hty'] at k6'
            have a := k6'.1; rw [k6.1] at a; simp [FieldTypeDef.isComplex] at a
          | typeName =>
            rw [hty'] at k6'
            have a : c.field.type.definition = .typeName := k6'
            rw [k6.1] at a; simp at a
          | enum n' => rw [hty'] at k6'; rw [k6.2, k6'.2]
          | scalar s =>
            rw [hty'] at k6'
            have a : c.field.type.definition = .scalar s := k6'
            rw [k6.1] at a; simp at a
        | scalar s =>
          rw [hty] at k6
          have b : c.field.type.definition = .scalar s := k6
          cases hty' : f'.type with
          | complex sub' =>
            rw [hty'] at k6'
            have a := k6'.1; rw [b] at a; simp [FieldTypeDef.isComplex] at a
          | typeName =>
            rw [hty'] at k6'
            have a : c.field.type.definition = .typeName := k6'
            rw [b] at a; simp at a
          | enum n => rw [hty'] at k6'; have a := k6'.1; rw [b] at a; simp at a
          | scalar s' =>
            rw [hty'] at k6'
            have a : c.field.type.definition = .scalar s' := k6'
            rw [b] at a
            injection a with a
            rw [a]
      -- equal as lists
      have hdk' : (fields'.map IRField.propName).Nodup := hpk.nodup_iff.1 hdk
      have hmem : ∀ f, f ∈ fields ↔ f ∈ fields' := by
        intro f
        constructor
        · intro hf
          obtain ⟨f', hf', he⟩ := List.mem_map.1 (hpk.mem_iff.1 (List.mem_map.2 ⟨f, hf, rfl⟩))
          rw [hsame f hf f' hf' he.symm]; exact hf'
        · intro hf
          obtain ⟨f', hf', he⟩ := List.mem_map.1 (hpk.mem_iff.2 (List.mem_map.2 ⟨f, hf, rfl⟩))
          rw [← hsame f' hf' f hf he]; exact hf'
      have hp : fields.Perm fields' :=
        (List.perm_ext_iff_of_nodup (List.Nodup.of_map _ hdk) (List.Nodup.of_map _ hdk')).2 hmem
      exact sorted_unique IRField.propName hp hsort hsort' hdk
    have hnd : (ps'.map Complex.name).Nodup := nodup_of_strict h'.1
    clear hs hd h h' ih
    revert hnames hone hnd
    clear P sets
    intro hnames hone hnd
    induction ps generalizing ps' with
    | nil => cases ps' with
      | nil => rfl
      | cons c cs => simp at hnames
    | cons c cs ih => cases ps' with
      | nil => simp at hnames
      | cons c' cs' =>
        obtain ⟨T, fs⟩ := c
        obtain ⟨T', fs'⟩ := c'
        simp only [List.map_cons, List.cons.injEq] at hnames
        have hT : T = T' := hnames.1
        subst hT
        rw [hone T fs fs' (List.mem_cons_self ..) (List.mem_cons_self ..)]
        rw [ih cs' hnames.2 (fun T f f' hm hm' =>
          hone T f f' (List.mem_cons_of_mem _ hm) (List.mem_cons_of_mem _ hm')) (by
          simp only [List.map_cons, List.nodup_cons] at hnd
          exact hnd.2)]

end Qlc
