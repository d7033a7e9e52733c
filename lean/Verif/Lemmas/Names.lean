import Verif.Lemmas.EmitDoc
import Verif.Spec.Names
/-
Lemmas for the names of generated types, and for when generation succeeds.
-/
set_option autoImplicit false

namespace Qlc
open Spec

variable {schema : Schema} {frags : Frags}

/-! ### Which alternatives are merged -/

theorem mem_commonProps {l : List (List String)} {x : String} (h : l ≠ []) :
    x ∈ commonProps l ↔ ∀ ps ∈ l, x ∈ ps := by
  cases l with
  | nil => exact absurd rfl h
  | cons a l =>
    unfold commonProps
    simp only [List.mem_filter, List.all_eq_true, decide_eq_true_eq, List.mem_cons, forall_eq_or_imp]

theorem sameSet_common_iff {ps : List Complex} {c : Complex} (hc : c ∈ ps) :
    sameSet (commonProps (ps.map (fun c => fieldIds c.fields))) (fieldIds c.fields) = true ↔ Shared ps c := by
  have hne : ps.map (fun c => fieldIds c.fields) ≠ [] := by
    intro e
    rw [List.map_eq_nil_iff] at e
    rw [e] at hc
    simp at hc
  rw [sameSet_iff]
  unfold Shared
  constructor
  · intro h x hx d hd
    exact (mem_commonProps hne).1 ((h x).2 hx) _ (List.mem_map.2 ⟨d, hd, rfl⟩)
  · intro h x
    rw [mem_commonProps hne]
    constructor
    · intro h'; exact h' _ (List.mem_map.2 ⟨c, hc, rfl⟩)
    · intro hx q hq
      obtain ⟨d, hd, rfl⟩ := List.mem_map.1 hq
      exact h x hx d hd

theorem merged_iff_shared {ps : List Complex} (hn : (ps.map Complex.name).Nodup) {c : Complex} (hc : c ∈ ps) :
    c.name ∈ mergedAlts ps ↔ Shared ps c := by
  rw [mem_mergedAlts]
  constructor
  · rintro ⟨d, hd, e, h⟩
    have := List.inj_on_of_nodup_map hn hd hc e
    subst this
    exact (sameSet_common_iff hd).1 h
  · intro h
    exact ⟨c, hc, rfl, (sameSet_common_iff hc).2 h⟩

theorem merged_perm {ps : List Complex} (hn : (ps.map Complex.name).Nodup) :
    (mergedAlts ps).Perm ((ps.filter (fun c => decide (Shared ps c))).map Complex.name) := by
  refine (List.perm_ext_iff_of_nodup (mergedAlts_nodup ps) ?_).2 ?_
  · exact ((List.filter_sublist (l := ps)).map Complex.name).nodup hn
  · intro T
    constructor
    · intro hT
      obtain ⟨c, hc, rfl⟩ := List.mem_map.1 (merged_subset hT)
      exact List.mem_map.2 ⟨c, List.mem_filter.2 ⟨hc, by simpa using (merged_iff_shared hn hc).1 hT⟩, rfl⟩
    · intro hT
      obtain ⟨c, hc, rfl⟩ := List.mem_map.1 hT
      obtain ⟨h1, h2⟩ := List.mem_filter.1 hc
      exact (merged_iff_shared hn h1).2 (by simpa using h2)

theorem all_shared_iff {ps : List Complex} (hn : (ps.map Complex.name).Nodup) :
    ps.length = (mergedAlts ps).length ↔ ∀ c ∈ ps, Shared ps c := by
  rw [(merged_perm hn).length_eq, List.length_map]
  constructor
  · intro h c hc
    have := List.length_filter_eq_length_iff.1 h.symm c hc
    simpa using this
  · intro h
    symm
    rw [List.length_filter_eq_length_iff]
    intro c hc
    simpa using h c hc

/-- The generated bodies are the groups. -/
theorem bodies_groups {ps : List Complex} (hne : ps ≠ []) (hn : (ps.map Complex.name).Nodup) (main : String) :
    List.Forall₂ (fun (g : String × List Complex) (b : Body) =>
      b.path = g.1 ∧ b.rep ∈ g.2 ∧ b.lits.Perm (g.2.map Complex.name)) (groups main ps) (bodies ps main) := by
  match ps, hne with
  | [c], _ =>
    have : ∀ d ∈ [c], Shared [c] d := by
      intro d hd
      rw [List.mem_singleton] at hd
      subst hd
      intro x hx e he
      rw [List.mem_singleton] at he
      subst he
      exact hx
    unfold groups
    rw [if_pos this]
    exact .cons ⟨rfl, by simp, by simp⟩ .nil
  | c :: d :: rest, _ =>
    rw [bodies_many]
    unfold groups
    by_cases h : ∀ e ∈ c :: d :: rest, Shared (c :: d :: rest) e
    · rw [if_pos h, if_pos ((all_shared_iff hn).2 h)]
      refine .cons ⟨rfl, List.mem_cons_self, ?_⟩ .nil
      refine (sortStr_perm _).trans ((merged_perm hn).trans ?_)
      rw [List.filter_eq_self.2 (fun e he => by simpa using h e he)]
    · rw [if_neg h, if_neg (fun e => h ((all_shared_iff hn).1 e))]
      have e1 : (c :: d :: rest).filter (fun p => decide (p.name ∉ mergedAlts (c :: d :: rest))) =
          (c :: d :: rest).filter (fun p => decide (¬ Shared (c :: d :: rest) p)) := by
        apply List.filter_congr
        intro e he
        simp only [merged_iff_shared hn he]
      have e2 : (c :: d :: rest).filter (fun p => decide (p.name ∈ mergedAlts (c :: d :: rest))) =
          (c :: d :: rest).filter (fun p => decide (Shared (c :: d :: rest) p)) := by
        apply List.filter_congr
        intro e he
        simp only [merged_iff_shared hn he]
      rw [e1, e2]
      refine List.rel_append ?_ ?_
      · generalize (c :: d :: rest).filter (fun p => decide (¬ Shared (c :: d :: rest) p)) = l
        induction l with
        | nil => exact .nil
        | cons a l ih => exact .cons ⟨rfl, by simp, by simp⟩ ih
      · by_cases hs : ∃ e ∈ c :: d :: rest, Shared (c :: d :: rest) e
        · rw [if_pos hs]
          have hne : (c :: d :: rest).filter (fun p => decide (Shared (c :: d :: rest) p)) ≠ [] := by
            obtain ⟨e, he, hse⟩ := hs
            intro e0
            have : e ∈ (c :: d :: rest).filter (fun p => decide (Shared (c :: d :: rest) p)) :=
              List.mem_filter.2 ⟨he, by simpa using hse⟩
            rw [e0] at this
            simp at this
          rw [List.getLast?_eq_some_getLast hne]
          refine .cons ⟨rfl, List.getLast_mem hne, ?_⟩ .nil
          exact (sortStr_perm _).trans (merged_perm hn)
        · rw [if_neg hs]
          have : (c :: d :: rest).filter (fun p => decide (Shared (c :: d :: rest) p)) = [] := by
            rw [List.filter_eq_nil_iff]
            intro e he hse
            exact hs ⟨e, he, by simpa using hse⟩
          rw [this]
          exact .nil

theorem named (cfg : TsConfig) (decls : List TsDecl) (hu : ∀ n, TsDecl.union n [] ∉ decls) (k : Nat) :
    ∀ (ps : List Complex) (main : String), AltsNodup ps → (∀ d ∈ collDecls cfg ps main, d ∈ decls) →
      Named decls k main ps := by
  induction k with
  | zero => intro ps main _ _; trivial
  | succ k ih =>
    intro ps main hal hsub
    have hn := hal ps .refl
    have hne : ps ≠ [] := by
      rintro rfl
      exact hu main (hsub _ (mem_collDecls.2 (.inr ⟨rfl, rfl⟩)))
    have hobj : ∀ b ∈ bodies ps main, TsDecl.object b.path (b.alt cfg).props ∈ decls := by
      intro b hb
      exact hsub _ (mem_collDecls.2 (.inl ⟨b, hb, mem_objDecls.2 (.inr rfl)⟩))
    refine ⟨(bodies ps main).map (fun b => (b.path, (b.alt cfg).props)), ?_, ?_⟩
    · cases hun : isUnion ps with
      | false =>
        obtain ⟨b, hb⟩ := bodies_ne_nil (main := main) hun
        have hp := bodies_single (main := main) hun b (by rw [hb]; simp)
        refine .inl ⟨(b.alt cfg).props, ?_, ?_⟩
        · rw [← hp]; exact hobj b (by rw [hb]; simp)
        · rw [hb, ← hp]; rfl
      | true =>
        refine .inr ⟨?_, ?_⟩
        · rw [List.map_map]
          exact hsub _ (mem_collDecls.2 (.inr ⟨hun, rfl⟩))
        · intro o ho
          obtain ⟨b, hb, rfl⟩ := List.mem_map.1 ho
          exact hobj b hb
    · rw [List.forall₂_map_right_iff]
      have hg := bodies_groups hne hn main
      have hall : ∀ b ∈ bodies ps main, b.rep ∈ ps ∧ ∀ d ∈ b.decls cfg, d ∈ decls := fun b hb =>
        ⟨(mem_bodies hb).1, fun d hd => hsub d (mem_collDecls.2 (.inl ⟨b, hb, hd⟩))⟩
      revert hg hall
      generalize groups main ps = gs
      generalize bodies ps main = bs
      intro hg hall
      induction hg with
      | nil => exact .nil
      | @cons g b gs bs hgb _ ih2 =>
        refine .cons ⟨hgb.1, b.rep, hgb.2.1, ?_⟩ (ih2 (fun b hb => hall b (by simp [hb])))
        show List.Forall₂ _ b.rep.fields (aFields cfg b.lits b.path b.rep.fields).2
        rw [aFields_props]
        apply forall₂_map_right
        intro fld hf
        obtain ⟨hm, hdecl⟩ := hall b (by simp)
        refine ⟨rfl, ?_, ?_⟩
        · intro sub hty
          simp only [hty]
          rw [← hgb.1]
          refine ⟨by unfold aType; rfl, ih sub _ ?_ ?_⟩
          · intro qs h
            obtain ⟨⟨T, fields⟩, _, _⟩ := b
            exact hal qs (under_head hm hf hty h)
          · intro d hd
            exact hdecl d (mem_objDecls.2 (.inl ⟨fld, hf, sub, hty, hd⟩))
        · intro hty
          simp only [hty]
          unfold aType
          exact ⟨_, rfl, hgb.2.2⟩

/-! ### When generation succeeds -/

/-- A possibility can be generated. -/
def PossOk (p : Poss) : Prop := ∀ disp path g, ∃ r, p.gen disp path g = .ok r

theorem genDistinct_ok {main : String} {rep : List String} : ∀ {ps : List Poss}, (∀ p ∈ ps, PossOk p) →
    ∀ defs names g, ∃ r, genDistinct main rep ps defs names g = .ok r
  | [], _, defs, names, g => ⟨_, by unfold genDistinct; rfl⟩
  | p :: ps, h, defs, names, g => by
    unfold genDistinct
    split
    · exact genDistinct_ok (fun q hq => h q (by simp [hq])) _ _ _
    · obtain ⟨r, hr⟩ := h p (by simp) p.name (main ++ "_" ++ p.name) g
      simp only [hr]
      exact genDistinct_ok (fun q hq => h q (by simp [hq])) _ _ _

theorem genCollection_ok (ω : Hash) {ps : List Poss} (hne : ps ≠ []) (h : ∀ p ∈ ps, PossOk p) (main : String)
    (g : List String) : ∃ r, genCollection ω ps main g = .ok r := by
  match ps, hne with
  | [p], _ => exact h p (by simp) _ _ _
  | p :: q :: rest, _ =>
    unfold genCollection
    simp only
    split
    · exact h p (by simp) _ _ _
    · obtain ⟨r, hr⟩ := genDistinct_ok h (main := main)
        (rep := (((p :: q :: rest).filter (fun x => sameSet (commonProps ((p :: q :: rest).map Poss.props))
          x.props)).map Poss.name).foldl setInsert []) [] [] g
      simp only [hr]
      split
      · exact ⟨_, rfl⟩
      · rename_i rep hrep
        have hm := (List.mem_filter.1 (List.mem_of_getLast? hrep)).1
        unfold genSmoosh
        obtain ⟨r', hr'⟩ := h rep hm (joinWith "\" | \"" (sortStr (ω.perm ["typescript.rs:375,404", main]
          ((((p :: q :: rest).filter (fun x => sameSet (commonProps ((p :: q :: rest).map Poss.props))
          x.props)).map Poss.name).foldl setInsert [])))) (main ++ "_$$other") r.2
        simp only [hr']
        exact ⟨_, rfl⟩

/-- No nested position is without alternatives. -/
def AllNonempty (ps : List Complex) : Prop := ∀ qs, Under ps qs → qs ≠ []

mutual
theorem genFields_ok (ω : Hash) (cfg : TsConfig) : ∀ (fs : List IRField),
    (∀ fld ∈ fs, ∀ sub, fld.type = .complex sub → AllNonempty sub) → ∀ (disp path : String) (g : List String),
    ∃ r, genFields ω cfg disp path fs g = .ok r
  | [], _, _, _, _ => ⟨_, by unfold genFields; rfl⟩
  | .mk prop doc dep last mods ty :: rest, h, disp, path, g => by
    unfold genFields
    obtain ⟨r, hr⟩ := genFieldType_ok ω cfg ty (fun sub hs => h (.mk prop doc dep last mods ty) List.mem_cons_self sub hs) disp (path ++ "_" ++ prop) g
    simp only [hr]
    obtain ⟨r', hr'⟩ := genFields_ok ω cfg rest (fun fld hf => h fld (by simp [hf])) disp path r.2
    simp only [hr']
    exact ⟨_, rfl⟩
theorem genFieldType_ok (ω : Hash) (cfg : TsConfig) : ∀ (ty : IRType),
    (∀ sub, ty = .complex sub → AllNonempty sub) → ∀ (disp path : String) (g : List String),
    ∃ r, genFieldType ω cfg disp path ty g = .ok r
  | .complex ps, h, disp, path, g => by
    unfold genFieldType
    have hne := h ps rfl
    obtain ⟨r, hr⟩ := genCollection_ok ω (ps := possOf ω cfg ps)
      (by
        have := hne ps .refl
        cases ps with
        | nil => exact absurd rfl this
        | cons c cs => obtain ⟨T, fields⟩ := c; unfold possOf; simp)
      (possOf_ok ω cfg ps (fun T fields hm fld hf sub hty qs hq => hne qs (under_head hm hf hty hq))) path g
    simp only [hr]
    exact ⟨_, rfl⟩
  | .enum n, _, _, _, _ => ⟨_, by unfold genFieldType; rfl⟩
  | .scalar s, _, _, _, _ => ⟨_, by unfold genFieldType; rfl⟩
  | .typeName, _, _, _, _ => ⟨_, by unfold genFieldType; rfl⟩
theorem possOf_ok (ω : Hash) (cfg : TsConfig) : ∀ (ps : List Complex),
    (∀ T fields, Complex.mk T fields ∈ ps → ∀ fld ∈ fields, ∀ sub, fld.type = .complex sub → AllNonempty sub) →
    ∀ p ∈ possOf ω cfg ps, PossOk p
  | [], _, p, hp => by unfold possOf at hp; simp at hp
  | .mk name fields :: rest, h, p, hp => by
    unfold possOf at hp
    rcases List.mem_cons.1 hp with rfl | hp
    · intro disp path g
      simp only
      obtain ⟨r, hr⟩ := genFields_ok ω cfg fields (h name fields (by simp)) disp path g
      simp only [hr]
      exact ⟨_, rfl⟩
    · exact possOf_ok ω cfg rest (fun T fs hm => h T fs (by simp [hm])) p hp
end

theorem genColl_ok (ω : Hash) (cfg : TsConfig) {ps : List Complex} (h : AllNonempty ps) (main : String)
    (g : List String) : ∃ r, genCollection ω (possOf ω cfg ps) main g = .ok r := by
  refine genCollection_ok ω ?_
    (possOf_ok ω cfg ps (fun T fields hm fld hf sub hty qs hq => h qs (under_head hm hf hty hq))) main g
  have := h ps .refl
  cases ps with
  | nil => exact absurd rfl this
  | cons c cs => obtain ⟨T, fields⟩ := c; unfold possOf; simp

theorem compileVariableTypes_ok (cfg : TsConfig) : ∀ (vs : List Variable),
    (∀ v ∈ vs, ∀ n, v.type = .custom n → (schema.getType n).isSome = true) → ∀ g,
    ∃ r, compileVariableTypes cfg schema vs g = .ok r
  | [], _, g => ⟨_, by unfold compileVariableTypes; rfl⟩
  | v :: vs, h, g => by
    unfold compileVariableTypes
    have : ∃ r, compileVariableTypeName cfg schema v g = .ok r := by
      unfold compileVariableTypeName
      cases hv : v.type with
      | custom n =>
        obtain ⟨t, ht⟩ := Option.isSome_iff_exists.1 (h v (by simp) n hv)
        simp only [ht]
        cases t.definition <;> exact ⟨_, rfl⟩
      | _ => exact ⟨_, rfl⟩
    obtain ⟨r, hr⟩ := this
    simp only [hr]
    obtain ⟨r', hr'⟩ := compileVariableTypes_ok cfg vs (fun w hw => h w (by simp [hw])) r.2
    simp only [hr']
    exact ⟨_, rfl⟩

theorem compileIr_ok (ω : Hash) {op : Operation} (cfg : TsConfig) (h : AllNonempty op.collection)
    (hv : ∀ vs, op.variables = some vs → ∀ v ∈ vs, ∀ n, v.type = .custom n → (schema.getType n).isSome = true) :
    ∃ c, compileIr ω op cfg schema = .ok c := by
  unfold compileIr
  obtain ⟨r, hr⟩ := genColl_ok ω cfg h op.name []
  simp only [hr]
  have : ∃ r', compileVariablesTypeDefinition ω cfg schema op r.2 = .ok r' := by
    unfold compileVariablesTypeDefinition
    cases ho : op.variables with
    | none => exact ⟨_, rfl⟩
    | some vs =>
      obtain ⟨r', hr'⟩ := compileVariableTypes_ok cfg vs (hv vs ho) r.2
      simp only [hr']
      exact ⟨_, rfl⟩
  obtain ⟨r', hr'⟩ := this
  simp only [hr']
  exact ⟨_, rfl⟩

/-! ### From the schema to the tree -/

theorem collX_field {T : String} {loc : Bool} {P : String} {items : List Selection} {L : List Contribution}
    (h : CollX schema frags T loc P items L) : ∀ c ∈ L, ∃ P' name, fieldOf schema P' name = some c.field := by
  induction h with
  | nil => simp
  | field _ hf _ ih =>
    intro c hc
    rcases List.mem_cons.1 hc with rfl | hc
    · exact ⟨_, _, hf⟩
    · exact ih c hc
  | fieldBad _ _ ih => exact ih
  | inlineIn _ _ _ _ ih1 ih2 => intro c hc; exact (List.mem_append.1 hc).elim (ih1 c) (ih2 c)
  | inlineOut _ _ ih => exact ih
  | spreadIn _ _ _ _ _ ih1 ih2 => intro c hc; exact (List.mem_append.1 hc).elim (ih1 c) (ih2 c)
  | spreadOut _ _ ih => exact ih

theorem collManyX_field {T P : String} {sets : List (List Selection)} {L : List Contribution}
    (h : CollManyX schema frags T P sets L) : ∀ c ∈ L, ∃ P' name, fieldOf schema P' name = some c.field := by
  obtain ⟨Ls, h1, rfl⟩ := h
  intro c hc
  obtain ⟨L, hL, hc⟩ := List.mem_flatten.1 hc
  obtain ⟨s, _, h⟩ := forall₂_mem h1 L hL
  exact collX_field h c hc

theorem composite_under {ps qs : List Complex} (h : Under ps qs) (hcon : Consistent schema)
    (ht : ∀ n, ∃ P sets, IsComposite schema P ∧ TreeIs schema (collectorX schema frags) n P sets ps) :
    ∀ n, ∃ P sets, IsComposite schema P ∧ TreeIs schema (collectorX schema frags) n P sets qs := by
  induction h with
  | refl => exact ht
  | @step qs T fields fld sub _ hm hf hty ih =>
    intro n
    obtain ⟨P, sets, _, h⟩ := ih (n + 1)
    obtain ⟨L, hL, _, slots, _, _, hF⟩ := h.2.2 T fields hm
    obtain ⟨s, _, hs⟩ := forall₂_mem hF fld hf
    obtain ⟨c, rest, e, _, _, _, _, _, h6⟩ := hs
    rw [hty] at h6
    refine ⟨_, _, ?_, h6.2⟩
    have hc : c ∈ sameSlot L s.1 s.2 := by rw [e]; simp
    obtain ⟨P', name, hfo⟩ := collManyX_field hL c (List.mem_filter.1 hc).1
    exact (hcon P' name c.field hfo).2.1 h6.1

theorem possible_ne_nil (hin : Inhabited schema) {P : String} (h : IsComposite schema P) :
    possibleTypes schema P ≠ [] := by
  unfold IsComposite fieldsOf at h
  unfold possibleTypes
  cases ht : schema.getType P with
  | none => rw [ht] at h; simp at h
  | some t =>
    have := hin _ (AMap.mem_of_get? ht)
    rw [ht] at h
    simp only at h this ⊢
    cases hd : t.definition <;> rw [hd] at h this <;> simp_all

theorem allNonempty_of_tree (hcon : Consistent schema) (hin : Inhabited schema) {ps : List Complex}
    (ht : ∀ n, ∃ P sets, IsComposite schema P ∧ TreeIs schema (collectorX schema frags) n P sets ps) :
    AllNonempty ps := by
  rintro qs hu rfl
  obtain ⟨P, sets, hP, h⟩ := composite_under hu hcon ht 1
  obtain ⟨T, hT⟩ := List.exists_mem_of_ne_nil _ (possible_ne_nil hin hP)
  have := (h.2.1 T).2 hT
  simp at this

end Qlc
