import Verif.Spec.Upgrade
import Verif.Spec.Graphql
import Verif.Lemmas.Compose
import Verif.Lemmas.Exact
/-
Lemmas about answers of upgraded servers (C134).
-/
set_option autoImplicit false

namespace Qlc
open Spec

variable {new old : JSchema} {frags : Frags} {applies : List Directive → Prop} {scalars : String → JVal → Prop}

theorem safer_admits {ok : String → String → Prop} {B' B : JVal → Prop} : ∀ {t' t : VarTy}, SaferTy ok t' t →
    (ok (baseName t') (baseName t) → ∀ y, B' y → B y) → ∀ x, Admits B' t' x → Admits B t x
  | .named _, .named _, h, hb, x, hx => hx.elim .inl (fun h' => .inr (hb h x h'))
  | .named _, .list _, h, _, _, _ => by simp [SaferTy] at h
  | .named _, .nonNull _, h, _, _, _ => by simp [SaferTy] at h
  | .list _, .named _, h, _, _, _ => by simp [SaferTy] at h
  | .list _, .nonNull _, h, _, _, _ => by simp [SaferTy] at h
  | .list a, .list b, h, hb, x, hx => by
    rcases hx with rfl | ⟨vs, rfl, hx⟩
    · exact .inl rfl
    · exact .inr ⟨vs, rfl, fun y hy => safer_admits (t' := a) (t := b) h hb y (hx y hy)⟩
  | .nonNull a, .nonNull b, h, hb, x, hx => ⟨hx.1, safer_admits (t' := a) (t := b) h hb x hx.2⟩
  | .nonNull a, .named B, h, hb, x, hx => safer_admits (t' := a) (t := .named B) h hb x hx.2
  | .nonNull a, .list b, h, hb, x, hx => safer_admits (t' := a) (t := .list b) h hb x hx.2

/-- What is known of a field that a server is asked for by a valid document. -/
def FieldFits (old : JSchema) (frags : Frags) (T : String) (w : Wanted) : Prop :=
  w.name = "__typename" ∨ w.name = "__schema" ∨ w.name = "__type" ∨
    ∃ k t Q, fieldType old T w.name = some (k, t) ∧ (∀ s ∈ w.items, GqlSelection old frags Q s) ∧
      ∀ U ∈ objectTypes old (baseName t), U ∈ objectTypes old Q

theorem collect_upgraded (hv : ValidDoc old) (A : AnswersSafe new old) {T : String}
    (hT : kindNamed new T = some "OBJECT")
    (hfr : ∀ name fd, AMap.get? frags name = some fd → CompositeNamed old fd.typeCond ∧
      ∀ s ∈ fd.items, GqlSelection old frags fd.typeCond s)
    {items : List Selection} {L : List Wanted} (h : Collect new frags applies T items L) :
    ∀ P, T ∈ objectTypes old P → (∀ s ∈ items, GqlSelection old frags P s) →
      Collect old frags applies T items L ∧ ∀ w ∈ L, FieldFits old frags T w := by
  induction h with
  | nil => intro P _ _; exact ⟨.nil, fun w hw => by simp at hw⟩
  | leftOutField hd _ ih =>
    intro P hP hs
    obtain ⟨a, b⟩ := ih P hP (fun s h => hs s (List.mem_cons_of_mem _ h))
    exact ⟨.leftOutField hd a, b⟩
  | leftOutInline hd _ ih =>
    intro P hP hs
    obtain ⟨a, b⟩ := ih P hP (fun s h => hs s (List.mem_cons_of_mem _ h))
    exact ⟨.leftOutInline hd a, b⟩
  | leftOutSpread hd _ ih =>
    intro P hP hs
    obtain ⟨a, b⟩ := ih P hP (fun s h => hs s (List.mem_cons_of_mem _ h))
    exact ⟨.leftOutSpread hd a, b⟩
  | field hd _ ih =>
    intro P hP hs
    obtain ⟨a, b⟩ := ih P hP (fun s h => hs s (List.mem_cons_of_mem _ h))
    refine ⟨.field hd a, ?_⟩
    intro w hw
    rcases List.mem_cons.1 hw with rfl | hw
    · have h0 := hs _ List.mem_cons_self
      cases h0 with
      | typename => exact .inl rfl
      | leaf hf _ =>
        obtain ⟨k', t', hf', hsub⟩ := hv.covariant P T hP _ _ _ hf
        exact .inr (.inr (.inr ⟨k', t', _, hf', fun s h => by simp at h, subTy_objects hsub⟩))
      | nested hf _ _ hi =>
        obtain ⟨k', t', hf', hsub⟩ := hv.covariant P T hP _ _ _ hf
        exact .inr (.inr (.inr ⟨k', t', _, hf', hi, subTy_objects hsub⟩))
      | introspection hn _ _ _ =>
        rcases hn with ⟨rfl, _⟩ | ⟨rfl, _⟩
        · exact .inr (.inl rfl)
        · exact .inr (.inr (.inl rfl))
    · exact b w hw
  | inline hd hc _ _ ih1 ih2 =>
    intro P hP hs
    obtain ⟨a, b⟩ := ih2 P hP (fun s h => hs s (List.mem_cons_of_mem _ h))
    have h0 := hs _ List.mem_cons_self
    cases h0 with
    | inline hcn _ _ hi =>
      have hT' := A.objects _ hcn T (hc _ rfl)
      obtain ⟨a', b'⟩ := ih1 _ hT' hi
      refine ⟨.inline hd (fun C e => by cases e; exact hT') a' a, fun w hw => ?_⟩
      rcases List.mem_append.1 hw with h | h
      · exact b' w h
      · exact b w h
    | plainInline _ hi =>
      obtain ⟨a', b'⟩ := ih1 _ hP hi
      refine ⟨.inline hd (fun C e => by cases e) a' a, fun w hw => ?_⟩
      rcases List.mem_append.1 hw with h | h
      · exact b' w h
      · exact b w h
  | otherInline hd hc _ ih =>
    intro P hP hs
    obtain ⟨a, b⟩ := ih P hP (fun s h => hs s (List.mem_cons_of_mem _ h))
    have h0 := hs _ List.mem_cons_self
    cases h0 with
    | inline hcn _ _ hi => exact ⟨.otherInline hd (fun h => hc (A.kept _ hcn T h hT)) a, b⟩
  | spread hd hf hc _ _ ih1 ih2 =>
    intro P hP hs
    obtain ⟨a, b⟩ := ih2 P hP (fun s h => hs s (List.mem_cons_of_mem _ h))
    obtain ⟨hcn, hi⟩ := hfr _ _ hf
    have hT' := A.objects _ hcn T hc
    obtain ⟨a', b'⟩ := ih1 _ hT' hi
    refine ⟨.spread hd hf hT' a' a, fun w hw => ?_⟩
    rcases List.mem_append.1 hw with h | h
    · exact b' w h
    · exact b w h
  | otherSpread hd hf hc _ ih =>
    intro P hP hs
    obtain ⟨a, b⟩ := ih P hP (fun s h => hs s (List.mem_cons_of_mem _ h))
    obtain ⟨hcn, _⟩ := hfr _ _ hf
    exact ⟨.otherSpread hd hf (fun h => hc (A.kept _ hcn T h hT)) a, b⟩

theorem leaf_upgraded (A : AnswersSafe new old) {k n : String} (hk : kindNamed old n = some k) {y : JVal}
    (hy : LeafValue new scalars k n y) : LeafValue old scalars k n y := by
  unfold LeafValue at hy ⊢
  by_cases he : k = "ENUM"
  · rw [if_pos he] at hy ⊢
    obtain ⟨j', vs', s, e1, e2, e3, e4⟩ := hy
    obtain ⟨j, vs, f1, f2, f3⟩ := A.enums _ (he ▸ hk) j' vs' e1 e2
    exact ⟨j, vs, s, f1, f2, f3 s e3, e4⟩
  · rw [if_neg he] at hy ⊢
    exact hy

/-- What the upgraded server answers to a document that is valid for the old version, a server of the old version may
answer as well. -/
theorem upgraded_answers (hv : ValidDoc old) (hv' : ValidDoc new) (A : AnswersSafe new old)
    (hfr : ∀ name fd, AMap.get? frags name = some fd → CompositeNamed old fd.typeCond ∧
      ∀ s ∈ fd.items, GqlSelection old frags fd.typeCond s) (n : Nat) :
    ∀ (T : String) (sets : List (List Selection)) (v : JVal), kindNamed new T = some "OBJECT" →
      (∀ set ∈ sets, ∃ P, T ∈ objectTypes old P ∧ ∀ s ∈ set, GqlSelection old frags P s) →
      (∀ n, MergesWell old frags applies n T sets) →
      AnswersTo new frags applies scalars n T sets v → AnswersTo old frags applies scalars n T sets v := by
  induction n with
  | zero => intro T sets v _ _ _ h; exact h
  | succ n ih =>
    rintro T sets v hT hsets hm ⟨L, ⟨Ls, hL, rfl⟩, fs, rfl, h1, h2, h3⟩
    have both : List.Forall₂ (Collect old frags applies T) sets Ls ∧
        ∀ L ∈ Ls, ∀ w ∈ L, FieldFits old frags T w := by
      clear h1 h2 h3 hm
      induction hL with
      | nil => exact ⟨.nil, fun L h => by simp at h⟩
      | cons a _ ih =>
        obtain ⟨P, hP, hs⟩ := hsets _ List.mem_cons_self
        obtain ⟨c1, c2⟩ := collect_upgraded hv A hT hfr a P hP hs
        obtain ⟨d1, d2⟩ := ih (fun set h => hsets set (List.mem_cons_of_mem _ h))
        refine ⟨.cons c1 d1, fun L h => ?_⟩
        rcases List.mem_cons.1 h with rfl | h
        · exact c2
        · exact d2 L h
    have hfit : ∀ w ∈ Ls.flatten, FieldFits old frags T w := by
      intro w hw
      obtain ⟨L, hL, hw⟩ := List.mem_flatten.1 hw
      exact both.2 L hL w hw
    have hcol : CollectMany old frags applies T sets Ls.flatten := ⟨Ls, both.1, rfl⟩
    refine ⟨_, hcol, fs, rfl, h1, h2, fun w hw => ?_⟩
    obtain ⟨x, hx, r, rest, hr, hv₀⟩ := h3 w hw
    refine ⟨x, hx, r, rest, hr, ?_⟩
    rcases hv₀ with hv₀ | ⟨hne, k', t', hf', ha⟩
    · exact .inl hv₀
    have hmem : ∀ u ∈ r :: rest, u ∈ Ls.flatten ∧ u.key = w.key := by
      intro u hu
      rw [← hr] at hu
      simpa using List.mem_filter.1 hu
    obtain ⟨hr1, hr2⟩ := hmem r List.mem_cons_self
    have hfilter : Ls.flatten.filter (fun w' => decide (w'.key = r.key)) = r :: rest := by rw [hr2]; exact hr
    obtain ⟨hname, hsub⟩ := mergesWell_step hm hcol hr1
    rcases hfit r hr1 with e | e | e | ⟨k, t, Q, hf, _⟩
    · exact absurd e hne
    · rw [e, (A.reserved T).1] at hf'; cases hf'
    · rw [e, (A.reserved T).2] at hf'; cases hf'
    refine .inr ⟨hne, k, t, hf, ?_⟩
    by_cases hk : CompositeKind k
    · obtain ⟨hk', hty⟩ := A.composites T r.name k t k' t' hf hf' hk
      refine safer_admits hty (fun hok y hy => ?_) x ha
      simp only [if_pos hk, if_pos hk'] at hy ⊢
      obtain ⟨U, hU, hy⟩ := hy
      have hUo := hok U hU
      refine ⟨U, hUo, ih U _ y (hv'.objects _ U hU) ?_ ?_ hy⟩
      · intro set hset
        obtain ⟨u, hu, rfl⟩ := List.mem_map.1 hset
        obtain ⟨hu1, hu2⟩ := hmem u hu
        have hn : u.name = r.name := hname u hu1 (hu2.trans hr2.symm)
        rcases hfit u hu1 with e | e | e | ⟨k₂, t₂, Q₂, g1, g2, g3⟩
        · exact absurd (hn ▸ e) hne
        · rw [← hn, e, (A.reserved T).1] at hf'; cases hf'
        · rw [← hn, e, (A.reserved T).2] at hf'; cases hf'
        · rw [hn, hf] at g1
          cases g1
          exact ⟨Q₂, g3 U hUo, g2⟩
      · intro n
        have := hsub k t hf U hUo n
        rwa [hfilter] at this
    · obtain ⟨rfl, hty⟩ := A.leaves T r.name k t k' t' hf hf' hk
      refine safer_admits hty (fun hok y hy => ?_) x ha
      simp only [if_neg hk] at hy ⊢
      rw [hok] at hy
      exact leaf_upgraded A (fieldType_baseKind hv hf) hy

/-! ### Directives that apply -/

theorem collect_applies {doc : JSchema} {applies' : List Directive → Prop} (hfr : FragsApply applies' frags) {T : String}
    {items : List Selection} {L : List Wanted} (h : Collect doc frags applies T items L) :
    Unconditional applies items → FragsApply applies frags → Unconditional applies' items →
      Collect doc frags applies' T items L ∧ ∀ w ∈ L, Unconditional applies w.items ∧ Unconditional applies' w.items := by
  intro hu hfa
  induction h with
  | nil => intro _; exact ⟨.nil, fun w hw => by simp at hw⟩
  | leftOutField hd _ ih => exact absurd (hu _ (by simp [directivesOf, directivesSel])) hd
  | leftOutInline hd _ ih => exact absurd (hu _ (by simp [directivesOf, directivesSel])) hd
  | leftOutSpread hd _ ih => exact absurd (hu _ (by simp [directivesOf, directivesSel])) hd
  | field hd _ ih =>
    intro hu'
    obtain ⟨a, b⟩ := ih (fun x hx => hu x (by simp [directivesOf, hx])) (fun x hx => hu' x (by simp [directivesOf, hx]))
    refine ⟨.field (hu' _ (by simp [directivesOf, directivesSel])) a, fun w hw => ?_⟩
    rcases List.mem_cons.1 hw with rfl | hw
    · exact ⟨fun x hx => hu x (by simp [directivesOf, directivesSel, hx]),
        fun x hx => hu' x (by simp [directivesOf, directivesSel, hx])⟩
    · exact b w hw
  | inline hd hc _ _ ih1 ih2 =>
    intro hu'
    obtain ⟨a, b⟩ := ih2 (fun x hx => hu x (by simp [directivesOf, hx])) (fun x hx => hu' x (by simp [directivesOf, hx]))
    obtain ⟨a', b'⟩ := ih1 (fun x hx => hu x (by simp [directivesOf, directivesSel, hx]))
      (fun x hx => hu' x (by simp [directivesOf, directivesSel, hx]))
    refine ⟨.inline (hu' _ (by simp [directivesOf, directivesSel])) hc a' a, fun w hw => ?_⟩
    rcases List.mem_append.1 hw with h | h
    · exact b' w h
    · exact b w h
  | otherInline hd hc _ ih =>
    intro hu'
    obtain ⟨a, b⟩ := ih (fun x hx => hu x (by simp [directivesOf, hx])) (fun x hx => hu' x (by simp [directivesOf, hx]))
    exact ⟨.otherInline (hu' _ (by simp [directivesOf, directivesSel])) hc a, b⟩
  | spread hd hf hc _ _ ih1 ih2 =>
    intro hu'
    obtain ⟨a, b⟩ := ih2 (fun x hx => hu x (by simp [directivesOf, hx])) (fun x hx => hu' x (by simp [directivesOf, hx]))
    obtain ⟨a', b'⟩ := ih1 (hfa _ _ hf) (hfr _ _ hf)
    refine ⟨.spread (hu' _ (by simp [directivesOf, directivesSel])) hf hc a' a, fun w hw => ?_⟩
    rcases List.mem_append.1 hw with h | h
    · exact b' w h
    · exact b w h
  | otherSpread hd hf hc _ ih =>
    intro hu'
    obtain ⟨a, b⟩ := ih (fun x hx => hu x (by simp [directivesOf, hx])) (fun x hx => hu' x (by simp [directivesOf, hx]))
    exact ⟨.otherSpread (hu' _ (by simp [directivesOf, directivesSel])) hf hc a, b⟩

/-- Where every directive applies, the rule on merging does not depend on the directives. -/
theorem mergesWell_applies {doc : JSchema} (hfr : FragsApply applies frags) (n : Nat) :
    ∀ (T : String) (sets : List (List Selection)), (∀ set ∈ sets, Unconditional applies set) →
      MergesWell doc frags (fun _ => True) n T sets → MergesWell doc frags applies n T sets := by
  induction n with
  | zero => intro _ _ _ h; exact h
  | succ n ih =>
    rintro T sets hu h L ⟨Ls, hL, rfl⟩ w hw
    have all : FragsApply (fun _ => True) frags := fun _ _ _ _ _ => trivial
    have both : List.Forall₂ (Collect doc frags (fun _ => True) T) sets Ls ∧
        ∀ L ∈ Ls, ∀ w ∈ L, Unconditional applies w.items := by
      clear h hw
      induction hL with
      | nil => exact ⟨.nil, fun L h => by simp at h⟩
      | cons a _ ih =>
        obtain ⟨c1, c2⟩ := collect_applies all a (hu _ List.mem_cons_self) hfr (fun _ _ => trivial)
        obtain ⟨d1, d2⟩ := ih (fun set h => hu set (List.mem_cons_of_mem _ h))
        refine ⟨.cons c1 d1, fun L h => ?_⟩
        rcases List.mem_cons.1 h with rfl | h
        · exact fun w hw => (c2 w hw).1
        · exact d2 L h
    obtain ⟨e1, e2⟩ := h _ ⟨Ls, both.1, rfl⟩ w hw
    refine ⟨e1, fun k t hf U hU => ih U _ ?_ (e2 k t hf U hU)⟩
    intro set hset
    obtain ⟨u, hu', rfl⟩ := List.mem_map.1 hset
    obtain ⟨L, hL, hu'⟩ := List.mem_flatten.1 (List.mem_filter.1 hu').1
    exact both.2 L hL u hu'

end Qlc
