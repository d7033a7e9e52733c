import Verif.Lemmas.EmitBodies
import Verif.Lemmas.IRDepth
/-
The declared names of a generated file.
-/
set_option autoImplicit false

namespace Qlc
open Spec

/-- A suffix as generated names have it: empty, or started by an underscore. -/
def Suffix (s : List Char) : Prop := s = [] ∨ ∃ s', s = '_' :: s'

/-- The name is the given name, possibly with a suffix. -/
def Extends (main x : String) : Prop := ∃ s, x.toList = main.toList ++ s ∧ Suffix s

theorem Extends.refl (main : String) : Extends main main := ⟨[], by simp, .inl rfl⟩

theorem Extends.under {main part x : String} (h : Extends (main ++ "_" ++ part) x) :
    ∃ s, x.toList = main.toList ++ '_' :: (part.toList ++ s) ∧ Suffix s := by
  obtain ⟨s, h1, h2⟩ := h
  exact ⟨s, by rw [h1]; simp, h2⟩

theorem Extends.of_under {main part x : String} (h : Extends (main ++ "_" ++ part) x) : Extends main x := by
  obtain ⟨s, h1, _⟩ := h.under
  exact ⟨_, h1, .inr ⟨_, rfl⟩⟩

theorem Extends.ne_of_under {main part x : String} (h : Extends (main ++ "_" ++ part) x) : x ≠ main := by
  obtain ⟨s, h1, _⟩ := h.under
  rintro rfl
  have := congrArg List.length h1
  simp at this

theorem suffix_unique : ∀ {a b s t : List Char}, (∀ c ∈ a, c ≠ '_') → (∀ c ∈ b, c ≠ '_') → Suffix s →
    Suffix t → a ++ s = b ++ t → a = b
  | [], [], _, _, _, _, _, _, _ => rfl
  | [], y :: b, s, t, _, hb, hs, _, e => by
    rcases hs with rfl | ⟨s', rfl⟩
    · simp at e
    · simp only [List.nil_append, List.cons_append, List.cons.injEq] at e
      exact absurd e.1.symm (hb y (by simp))
  | x :: a, [], s, t, ha, _, _, ht, e => by
    rcases ht with rfl | ⟨t', rfl⟩
    · simp at e
    · simp only [List.nil_append, List.cons_append, List.cons.injEq] at e
      exact absurd e.1 (ha x (by simp))
  | x :: a, y :: b, s, t, ha, hb, hs, ht, e => by
    simp only [List.cons_append, List.cons.injEq] at e
    rw [e.1, suffix_unique (fun c hc => ha c (by simp [hc])) (fun c hc => hb c (by simp [hc])) hs ht e.2]

/-- Two names below different parts are different. -/
theorem extends_part_unique {main a b x : String} (ha : ∀ c ∈ a.toList, c ≠ '_')
    (hb : ∀ c ∈ b.toList, c ≠ '_') (h1 : Extends (main ++ "_" ++ a) x) (h2 : Extends (main ++ "_" ++ b) x) :
    a = b := by
  obtain ⟨s, e1, hs⟩ := h1.under
  obtain ⟨t, e2, ht⟩ := h2.under
  rw [e1] at e2
  have e := List.append_cancel_left e2
  simp only [List.cons.injEq, true_and] at e
  exact String.toList_inj.1 (suffix_unique ha hb hs ht e)

theorem other_eq (main : String) : main ++ "_$$other" = main ++ "_" ++ "$$other" := by
  apply String.toList_inj.1
  simp

/-- Every path is the name of the position or goes below it. -/
theorem body_extends {ps : List Complex} {main : String} {b : Body} (h : b ∈ bodies ps main) :
    Extends main b.path := by
  cases hu : isUnion ps with
  | false => rw [bodies_single hu b h]; exact .refl main
  | true =>
    rcases (bodies_union hu).1 b h with ⟨e, _⟩ | e
    · rw [e]; exact Extends.of_under (.refl _)
    · rw [e, other_eq]; exact Extends.of_under (.refl _)

theorem Extends.trans {a b c : String} (h1 : Extends a b) (h2 : Extends b c) : Extends a c := by
  obtain ⟨s, e1, hs⟩ := h1
  obtain ⟨t, e2, ht⟩ := h2
  refine ⟨s ++ t, by rw [e2, e1]; simp, ?_⟩
  rcases hs with rfl | ⟨s', rfl⟩
  · simpa using ht
  · exact .inr ⟨s' ++ t, rfl⟩

/-- All names declared for a position extend its name. -/
theorem coll_extends (cfg : TsConfig) (n : Nat) : ∀ (ps : List Complex), sizeOf ps ≤ n →
    ∀ (main : String), ∀ d ∈ collDecls cfg ps main, Extends main d.name := by
  induction n with
  | zero => intro ps hs; exfalso; cases ps <;> simp at hs
  | succ n ih =>
    intro ps hs main d hd
    rcases mem_collDecls.1 hd with ⟨b, hb, hd⟩ | ⟨_, rfl⟩
    · refine (body_extends hb).trans ?_
      unfold Body.decls at hd
      rcases mem_objDecls.1 hd with ⟨fld, hf, sub, hty, hd⟩ | rfl
      · have hm := (mem_bodies hb).1
        obtain ⟨rep, lits, path⟩ := b
        obtain ⟨T, fields⟩ := rep
        have := sizeOf_sub hm hf hty
        exact Extends.of_under (ih sub (by omega) _ d hd)
      · exact .refl _
    · exact .refl _

theorem objDecls_names (cfg : TsConfig) (lits : List String) (path : String) (fields : List IRField) :
    (objDecls cfg lits path fields).map TsDecl.name =
      fields.flatMap (fun f => (aType cfg lits (path ++ "_" ++ f.propName) f.type).1.map TsDecl.name) ++
        [path] := by
  unfold objDecls
  rw [List.map_append, aFields_decls, List.map_flatMap]
  rfl

theorem obj_extends {cfg : TsConfig} {lits : List String} {path : String} {fields : List IRField}
    {x : String} (h : x ∈ (objDecls cfg lits path fields).map TsDecl.name) : Extends path x := by
  obtain ⟨d, hd, rfl⟩ := List.mem_map.1 h
  rcases mem_objDecls.1 hd with ⟨fld, hf, sub, hty, hd⟩ | rfl
  · exact Extends.of_under (coll_extends cfg _ sub (Nat.le_refl _) _ d hd)
  · exact .refl _

/-- The names declared for a position are distinct. -/
theorem coll_nodup (cfg : TsConfig) (n : Nat) : ∀ (ps : List Complex), sizeOf ps ≤ n → PlainNames ps →
    PropsNodup ps → AltsNodup ps → ∀ (main : String), ((collDecls cfg ps main).map TsDecl.name).Nodup := by
  induction n with
  | zero => intro ps hs; exfalso; cases ps <;> simp at hs
  | succ n ih =>
    intro ps hs hpl hpr hal main
    have hobj : ∀ b ∈ bodies ps main, ((b.decls cfg).map TsDecl.name).Nodup := by
      intro b hb
      obtain ⟨⟨T, fields⟩, lits, path⟩ := b
      have hm : Complex.mk T fields ∈ ps := (mem_bodies hb).1
      unfold Body.decls
      simp only [Complex.fields]
      have hsub : ∀ fld ∈ fields, ∀ x ∈ (aType cfg lits (path ++ "_" ++ fld.propName) fld.type).1.map
          TsDecl.name, (∃ sub, fld.type = .complex sub) ∧ Extends (path ++ "_" ++ fld.propName) x := by
        intro fld hf x hx
        cases hty : fld.type with
        | complex sub =>
          rw [hty] at hx
          unfold aType at hx
          obtain ⟨d, hd, rfl⟩ := List.mem_map.1 hx
          exact ⟨⟨sub, rfl⟩, coll_extends cfg _ sub (Nat.le_refl _) _ d hd⟩
        | _ => rw [hty] at hx; unfold aType at hx; simp at hx
      rw [objDecls_names, List.nodup_append]
      refine ⟨?_, by simp, ?_⟩
      · rw [List.nodup_flatMap]
        refine ⟨?_, ?_⟩
        · intro fld hf
          cases hty : fld.type with
          | complex sub =>
            unfold aType
            have := sizeOf_sub hm hf hty
            exact ih sub (by omega) (fun qs h => hpl qs (under_head hm hf hty h))
              (fun qs h => hpr qs (under_head hm hf hty h)) (fun qs h => hal qs (under_head hm hf hty h)) _
          | _ => unfold aType; simp
        · have hpn : fields.Pairwise (fun a b => a.propName ≠ b.propName) :=
            List.pairwise_map.1 (hpr ps .refl T fields hm)
          refine hpn.imp_of_mem ?_
          intro f g hf hg hne x hx hx'
          obtain ⟨c1, e1⟩ := hsub f hf x hx
          obtain ⟨c2, e2⟩ := hsub g hg x hx'
          have hp := (hpl ps .refl T fields hm).2
          exact hne (extends_part_unique (fun c hc => (hp f hf c1 c hc).1)
            (fun c hc => (hp g hg c2 c hc).1) e1 e2)
      · intro x hx y hy
        rw [List.mem_singleton] at hy
        subst hy
        obtain ⟨fld, hf, hx⟩ := List.mem_flatMap.1 hx
        exact (hsub fld hf x hx).2.ne_of_under
    have hnames : ∀ c ∈ ps, Plain c.name := by
      rintro ⟨T, fields⟩ hc
      exact (hpl ps .refl T fields hc).1
    rw [collDecls_bodies, List.map_append, List.map_flatMap, List.nodup_append]
    cases hu : isUnion ps with
    | false =>
      simp only [Bool.false_eq_true, if_false, List.map_nil, List.nodup_nil, List.not_mem_nil,
        false_imp_iff, implies_true, and_self, and_true]
      have hlen := bodies_length (main := main) hu
      match hb : bodies ps main, hlen with
      | [], _ => simp
      | [b], _ =>
        simp only [List.flatMap_cons, List.flatMap_nil, List.append_nil]
        exact hobj b (by rw [hb]; simp)
    | true =>
      obtain ⟨hpath, hnd⟩ := bodies_union (main := main) hu
      have hother : ∀ c ∈ ps, c.name ≠ "$$other" := by
        intro c hc e
        have := hnames c hc '$' (by rw [e]; decide)
        exact this.2 rfl
      have hnd := hnd hother (hal ps .refl)
      have hpart : ∀ b ∈ bodies ps main, ∃ part : String, b.path = main ++ "_" ++ part ∧
          ∀ c ∈ part.toList, c ≠ '_' := by
        intro b hb
        rcases hpath b hb with ⟨e, _⟩ | e
        · exact ⟨_, e, fun c hc => (hnames _ (mem_bodies hb).1 c hc).1⟩
        · exact ⟨"$$other", by rw [e, other_eq], by decide⟩
      refine ⟨?_, by simp [TsDecl.name], ?_⟩
      · rw [List.nodup_flatMap]
        refine ⟨hobj, ?_⟩
        have hnd' : (bodies ps main).Pairwise (fun a b => a.path ≠ b.path) := List.pairwise_map.1 hnd
        refine hnd'.imp_of_mem ?_
        intro a b ha hb hne x hx hx'
        obtain ⟨p, ep, hp⟩ := hpart a ha
        obtain ⟨q, eq, hq⟩ := hpart b hb
        have e1 := obj_extends hx
        have e2 := obj_extends hx'
        rw [ep] at e1
        rw [eq] at e2
        apply hne
        rw [ep, eq, extends_part_unique hp hq e1 e2]
      · intro x hx y hy
        simp only [if_true, List.map_cons, List.map_nil, List.mem_singleton] at hy
        subst hy
        obtain ⟨b, hb, hx⟩ := List.mem_flatMap.1 hx
        obtain ⟨p, ep, hp⟩ := hpart b hb
        have e1 := obj_extends hx
        rw [ep] at e1
        exact e1.ne_of_under

theorem variables_ne {main x : String} (h : Extends main x) : x ≠ main ++ "Variables" := by
  obtain ⟨s, e, hs⟩ := h
  rintro rfl
  rw [String.toList_append] at e
  have e' := List.append_cancel_left e
  have hv : "Variables".toList = 'V' :: "ariables".toList := by decide
  rw [hv] at e'
  rcases hs with rfl | ⟨s', rfl⟩
  · simp at e'
  · simp at e'

end Qlc
