import Verif.Lemmas.EmitNames
/-
The generated declarations render the tree.
-/
set_option autoImplicit false

namespace Qlc
open Spec

theorem sortStr_strict {l : List String} (h : l.Nodup) : (sortStr l).Pairwise (· < ·) := by
  refine pairwise_lt_of_sorted_nodup ?_ ((sortStr_perm l).nodup_iff.2 h)
  exact sortBy_sorted id l

theorem body_lits {ps : List Complex} (hn : (ps.map Complex.name).Nodup) {main : String} {b : Body}
    (h : b ∈ bodies ps main) : b.lits.Pairwise (· < ·) ∧ b.rep.name ∈ b.lits := by
  match ps, h with
  | [c], h =>
    unfold bodies at h
    rw [List.mem_singleton] at h
    subst h
    simp
  | c :: d :: rest, h =>
    rw [bodies_many] at h
    split at h
    · rename_i hl
      rw [List.mem_singleton] at h
      subst h
      refine ⟨sortStr_strict (mergedAlts_nodup _), ?_⟩
      rw [mem_sortStr]
      exact (merged_all hn hl _).2 (List.mem_map.2 ⟨c, List.mem_cons_self, rfl⟩)
    · rw [List.mem_append] at h
      rcases h with h | h
      · obtain ⟨p, hp, rfl⟩ := List.mem_map.1 h
        simp
      · split at h
        · simp at h
        · rename_i r hr
          rw [List.mem_singleton] at h
          subst h
          refine ⟨sortStr_strict (mergedAlts_nodup _), ?_⟩
          rw [mem_sortStr]
          simpa using (List.mem_filter.1 (List.mem_of_getLast? hr)).2

/-- The alternative as printed. -/
def Body.alt (cfg : TsConfig) (b : Body) : Alt :=
  ⟨b.path, (aFields cfg b.lits b.path b.rep.fields).2, b.lits, b.rep⟩

theorem bodies_ne_nil {ps : List Complex} {main : String} (h : isUnion ps = false) :
    ∃ b, bodies ps main = [b] := by
  match ps, h with
  | [], h => simp [isUnion] at h
  | [c], _ => exact ⟨_, rfl⟩
  | c :: d :: rest, h =>
    have : (c :: d :: rest).length = (mergedAlts (c :: d :: rest)).length := by
      unfold isUnion at h
      simpa using h
    rw [bodies_many, if_pos this]
    exact ⟨_, rfl⟩

theorem forall₂_map_right {α β : Type} {R : α → β → Prop} (f : α → β) : ∀ (l : List α),
    (∀ a ∈ l, R a (f a)) → List.Forall₂ R l (l.map f)
  | [], _ => .nil
  | a :: l, h => .cons (h a (by simp)) (forall₂_map_right f l (fun b hb => h b (by simp [hb])))

theorem renders (cfg : TsConfig) (decls : List TsDecl) (k : Nat) : ∀ (ps : List Complex) (main : String),
    AltsNodup ps → (∀ d ∈ collDecls cfg ps main, d ∈ decls) → Renders cfg decls k main ps := by
  induction k with
  | zero => intro ps main _ _; trivial
  | succ k ih =>
    intro ps main hal hsub
    have hn := hal ps .refl
    have hobj : ∀ b ∈ bodies ps main, TsDecl.object b.path (b.alt cfg).props ∈ decls := by
      intro b hb
      exact hsub _ (mem_collDecls.2 (.inl ⟨b, hb, mem_objDecls.2 (.inr rfl)⟩))
    refine ⟨(bodies ps main).map (Body.alt cfg), ?_, ?_, ?_, ?_⟩
    · cases hu : isUnion ps with
      | false =>
        obtain ⟨b, hb⟩ := bodies_ne_nil (main := main) hu
        have hp := bodies_single (main := main) hu b (by rw [hb]; simp)
        refine .inl ⟨(b.alt cfg).props, ?_, ?_⟩
        · rw [← hp]; exact hobj b (by rw [hb]; simp)
        · rw [hb, ← hp]; rfl
      | true =>
        refine .inr ⟨?_, ?_⟩
        · rw [List.map_map, List.map_map]
          exact hsub _ (mem_collDecls.2 (.inr ⟨hu, rfl⟩))
        · intro o ho
          rw [List.map_map] at ho
          obtain ⟨b, hb, rfl⟩ := List.mem_map.1 ho
          exact hobj b hb
    · intro T
      rw [bodies_cover hn main T]
      simp only [List.mem_map, exists_exists_and_eq_and]
      rfl
    · rw [List.pairwise_map]
      exact bodies_disjoint hn main
    · intro a ha
      obtain ⟨b, hb, rfl⟩ := List.mem_map.1 ha
      obtain ⟨hl, hr⟩ := body_lits hn hb
      refine ⟨(mem_bodies hb).1, hr, ?_, ?_⟩
      · intro c hc hT
        obtain ⟨c', hc', e, hs⟩ := bodies_sameProps hn hb hT
        have := List.inj_on_of_nodup_map hn hc' hc e
        subst this
        exact hs
      · show List.Forall₂ _ b.rep.fields (aFields cfg b.lits b.path b.rep.fields).2
        rw [aFields_props]
        apply forall₂_map_right
        intro fld hf
        refine ⟨rfl, rfl, rfl, rfl, rfl, ?_⟩
        simp only
        cases hty : fld.type with
        | complex sub =>
          unfold aType
          refine ⟨_, rfl, ih sub _ ?_ ?_⟩
          · intro qs h
            have hm := (mem_bodies hb).1
            obtain ⟨⟨T, fields⟩, _, _⟩ := b
            exact hal qs (under_head hm hf hty h)
          · intro d hd
            exact hsub d (mem_collDecls.2 (.inl ⟨b, hb, mem_objDecls.2 (.inl ⟨fld, hf, sub, hty, hd⟩)⟩))
        | enum n => unfold aType; rfl
        | scalar s => unfold aType; rfl
        | typeName => unfold aType; exact ⟨_, rfl, hl, fun T => Iff.rfl⟩

end Qlc
