import Verif.Lemmas.EmitRender
import Verif.Lemmas.IRTerm
import Verif.Lemmas.IRDepth
/-
From the document to the hypotheses about the tree that declared names need.
-/
set_option autoImplicit false

namespace Qlc
open Spec

variable {schema : Schema} {frags : Frags}

theorem Under.trans {ps qs rs : List Complex} (h1 : Under ps qs) (h2 : Under qs rs) : Under ps rs := by
  induction h2 with
  | refl => exact h1
  | step _ a b c ih => exact ih.step a b c

theorem tree_under {coll : Collector} {ps qs : List Complex} (h : Under ps qs)
    (ht : ∀ n, ∃ P sets, TreeIs schema coll n P sets ps) : ∀ n, ∃ P sets, TreeIs schema coll n P sets qs := by
  induction h with
  | refl => exact ht
  | @step qs T fields fld sub _ hm hf hty ih =>
    intro n
    obtain ⟨P, sets, h⟩ := ih (n + 1)
    obtain ⟨L, _, _, slots, _, _, hF⟩ := h.2.2 T fields hm
    obtain ⟨s, _, hs⟩ := forall₂_mem hF fld hf
    obtain ⟨c, rest, _, _, _, _, _, _, h6⟩ := hs
    rw [hty] at h6
    exact ⟨_, _, h6.2⟩

theorem altsNodup_of_tree {coll : Collector} {ps : List Complex}
    (ht : ∀ n, ∃ P sets, TreeIs schema coll n P sets ps) : AltsNodup ps := by
  intro qs hu
  obtain ⟨P, sets, h⟩ := tree_under hu ht 1
  exact nodup_of_strict h.1

theorem distinct_under {ps qs : List Complex} (h : Under ps qs) (hd : DistinctPoss ps) :
    DistinctPoss qs := by
  induction h with
  | refl => exact hd
  | @step qs T fields fld sub _ hm hf hty ih =>
    have := mem_distinctFields (mem_distinctPoss ih hm).2 hf
    rw [hty] at this
    exact this

theorem propsNodup_of_distinct {ps : List Complex} (hd : DistinctPoss ps) : PropsNodup ps := by
  intro qs hu T fields hm
  exact (mem_distinctPoss (distinct_under hu hd) hm).1

/-- All composite keys written in these selections have the property. -/
def KeysAre (Q : String → Prop) (items : List Selection) : Prop := ∀ k ∈ compositeKeys items, Q k

variable {Q : String → Prop}

theorem keysAre_cons {s : Selection} {rest : List Selection} :
    KeysAre Q (s :: rest) ↔ (∀ k ∈ compositeKeysSel s, Q k) ∧ KeysAre Q rest := by
  unfold KeysAre
  rw [compositeKeys]
  simp only [List.mem_append, or_imp, forall_and]

theorem collX_keys {T : String} (hfr : ∀ name fd, AMap.get? frags name = some fd → KeysAre Q fd.items)
    {loc : Bool} {P : String} {items : List Selection} {L : List Contribution}
    (h : CollX schema frags T loc P items L) : KeysAre Q items → ∀ c ∈ L, KeysAre Q c.items ∧
      (c.field.type.definition.isComplex = true → Q c.key) := by
  induction h with
  | nil => intro _ c hc; simp at hc
  | @field loc P pos al name args dirs items rest f L hck hf _ ih =>
    intro hp c hc
    rw [keysAre_cons, compositeKeysSel] at hp
    rcases List.mem_cons.1 hc with rfl | hc
    · refine ⟨fun k hk => hp.1 k (List.mem_append_right _ hk), fun hx => ?_⟩
      refine hp.1 _ (List.mem_append_left _ ?_)
      unfold checkSel at hck
      rw [hf] at hck
      simp only at hck hx
      rw [if_pos hx] at hck
      split at hck
      · simp at hck
      · rename_i hne
        rw [if_neg hne]
        simp
    · exact ih hp.2 c hc
  | fieldBad _ _ ih => intro hp; rw [keysAre_cons] at hp; exact ih hp.2
  | inlineIn _ _ _ _ ih1 ih2 =>
    intro hp c hc
    rw [keysAre_cons, compositeKeysSel] at hp
    rcases List.mem_append.1 hc with hc | hc
    · exact ih1 hp.1 c hc
    · exact ih2 hp.2 c hc
  | inlineOut _ _ ih => intro hp; rw [keysAre_cons] at hp; exact ih hp.2
  | spreadIn hg _ _ _ _ ih1 ih2 =>
    intro hp c hc
    rw [keysAre_cons] at hp
    rcases List.mem_append.1 hc with hc | hc
    · exact ih1 (hfr _ _ hg) c hc
    · exact ih2 hp.2 c hc
  | spreadOut _ _ ih => intro hp; rw [keysAre_cons] at hp; exact ih hp.2

theorem collManyX_keys {T : String}
    (hfr : ∀ name fd, AMap.get? frags name = some fd → KeysAre Q fd.items)
    {P : String} {sets : List (List Selection)} {L : List Contribution}
    (h : CollManyX schema frags T P sets L) (hp : ∀ s ∈ sets, KeysAre Q s) : ∀ c ∈ L, KeysAre Q c.items ∧
      (c.field.type.definition.isComplex = true → Q c.key) := by
  obtain ⟨Ls, h1, rfl⟩ := h
  intro c hc
  obtain ⟨L, hL, hc⟩ := List.mem_flatten.1 hc
  obtain ⟨s, hs, h⟩ := forall₂_mem h1 L hL
  exact collX_keys hfr h (hp s hs) c hc

theorem keys_under {ps qs : List Complex} (h : Under ps qs)
    (hfr : ∀ name fd, AMap.get? frags name = some fd → KeysAre Q fd.items)
    (ht : ∀ n, ∃ P sets, TreeIs schema (collectorX schema frags) n P sets ps ∧ ∀ s ∈ sets, KeysAre Q s) :
    ∀ n, ∃ P sets, TreeIs schema (collectorX schema frags) n P sets qs ∧ ∀ s ∈ sets, KeysAre Q s := by
  induction h with
  | refl => exact ht
  | @step qs T fields fld sub _ hm hf hty ih =>
    intro n
    obtain ⟨P, sets, h, hp⟩ := ih (n + 1)
    obtain ⟨L, hL, _, slots, _, _, hF⟩ := h.2.2 T fields hm
    obtain ⟨s, _, hs⟩ := forall₂_mem hF fld hf
    obtain ⟨c, rest, e, _, _, _, _, _, h6⟩ := hs
    rw [hty] at h6
    refine ⟨_, _, h6.2, ?_⟩
    intro s' hs'
    obtain ⟨c', hc', rfl⟩ := List.mem_map.1 hs'
    exact (collManyX_keys hfr hL hp c' (List.mem_filter.1 hc').1).1

theorem keys_of_tree {ps : List Complex}
    (hfr : ∀ name fd, AMap.get? frags name = some fd → KeysAre Q fd.items)
    (ht : ∀ n, ∃ P sets, TreeIs schema (collectorX schema frags) n P sets ps ∧ ∀ s ∈ sets, KeysAre Q s) :
    ∀ qs, Under ps qs → ∀ T fields, Complex.mk T fields ∈ qs → ∀ fld ∈ fields,
      (∃ sub, fld.type = .complex sub) → Q fld.propName := by
  rintro qs hu T fields hm fld hf ⟨sub, hty⟩
  obtain ⟨P, sets, h, hp⟩ := keys_under hu hfr ht 1
  obtain ⟨L, hL, _, slots, _, _, hF⟩ := h.2.2 T fields hm
  obtain ⟨s, _, hs⟩ := forall₂_mem hF fld hf
  obtain ⟨c, rest, e, h1, _, _, _, _, h6⟩ := hs
  rw [hty] at h6
  rw [h1]
  have hc : c ∈ sameSlot L s.1 s.2 := by rw [e]; simp
  exact (collManyX_keys hfr hL hp c (List.mem_filter.1 hc).1).2 h6.1

theorem plainNames_of_tree {ps : List Complex}
    (hfr : ∀ name fd, AMap.get? frags name = some fd → KeysAre Plain fd.items)
    (hT : ∀ P, ∀ T ∈ possibleTypes schema P, Plain T)
    (ht : ∀ n, ∃ P sets, TreeIs schema (collectorX schema frags) n P sets ps ∧ ∀ s ∈ sets, KeysAre Plain s) :
    PlainNames ps := by
  intro qs hu T fields hm
  refine ⟨?_, keys_of_tree hfr ht qs hu T fields hm⟩
  obtain ⟨P, sets, h, _⟩ := keys_under hu hfr ht 1
  exact hT P T ((h.2.1 T).1 (List.mem_map.2 ⟨_, hm, rfl⟩))

end Qlc
