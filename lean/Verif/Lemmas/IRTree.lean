import Verif.Lemmas.IRCollect
import Mathlib.Data.List.Perm.Basic
/-
From traversals to the generated tree.
-/
set_option autoImplicit false

namespace Qlc
open Spec

variable {schema : Schema} {frags : Frags}

/-- One entry (the closure of ir.rs:272-281). -/
def entryIR (ω : Hash) (path : List String) (e : FEntry) : Except IrError IRField :=
  match typeIrForField ω (e.id.1 :: path) e.field e.trav with
  | .error e => .error e
  | .ok ty => .ok (.mk e.id.1 e.field.documentation e.field.deprecated e.field.type.last
      e.field.type.rest ty)

theorem entriesToIR_eq (ω : Hash) (path : List String) (fs : List FEntry) :
    entriesToIR ω path fs = fs.map (entryIR ω path) := by
  induction fs with
  | nil => unfold entriesToIR; rfl
  | cons e fs ih =>
    obtain ⟨id, f, t⟩ := e
    unfold entriesToIR
    rw [ih]
    rfl

/-- One object (the closure of ir.rs:382-387). -/
def objIR (ω : Hash) (path : List String) (o : Obj) : Except IrError Complex :=
  match seqE (ω.perm ("ir.rs:271" :: o.typeName :: path) (entriesToIR ω (o.typeName :: path) o.fields)) with
  | .error e => .error e
  | .ok irs => .ok (.mk o.typeName (sortBy IRField.propName irs))

theorem objsToIR_eq (ω : Hash) (path : List String) (os : List Obj) :
    objsToIR ω path os = os.map (objIR ω path) := by
  induction os with
  | nil => unfold objsToIR; rfl
  | cons o os ih =>
    obtain ⟨T, fs⟩ := o
    unfold objsToIR
    rw [ih]
    rfl

theorem forall₂_of_map_ok' {ε α β : Type} (f : α → Except ε β) : ∀ (l : List α) (bs : List β),
    l.map f = bs.map .ok → List.Forall₂ (fun a b => f a = .ok b) l bs := by
  intro l
  induction l with
  | nil => intro bs h; cases bs with
    | nil => exact .nil
    | cons b bs => simp at h
  | cons a l ih => intro bs h; cases bs with
    | nil => simp at h
    | cons b bs =>
      simp only [List.map_cons, List.cons.injEq] at h
      exact .cons h.1 (ih bs h.2)

/-- Mapping a fallible function over a hash table: the results belong to a permutation. -/
theorem seqE_perm {ε α β : Type} (ω : Hash) (site : List String) (f : α → Except ε β) (l : List α)
    (bs : List β) (h : seqE (ω.perm site (l.map f)) = .ok bs) :
    ∃ l' : List α, l'.Perm l ∧ List.Forall₂ (fun a b => f a = .ok b) l' bs := by
  rw [seqE_ok_iff] at h
  obtain ⟨l', hp, he⟩ := perm_map_inv f (ω.isPerm site (l.map f)) l rfl
  exact ⟨l', hp, forall₂_of_map_ok' f l' bs (by rw [← he, h])⟩

/-- … and it succeeds if the function does everywhere. -/
theorem seqE_perm_ok {ε α β : Type} (ω : Hash) (site : List String) (f : α → Except ε β) (l : List α)
    (h : ∀ a ∈ l, ∃ b, f a = .ok b) : ∃ bs, seqE (ω.perm site (l.map f)) = .ok bs := by
  cases hs : seqE (ω.perm site (l.map f)) with
  | ok bs => exact ⟨bs, rfl⟩
  | error e =>
    exfalso
    have : ∀ x ∈ ω.perm site (l.map f), ∃ b, x = Except.ok b := by
      intro x hx
      obtain ⟨a, ha, rfl⟩ := List.mem_map.1 ((ω.isPerm site _).mem_iff.1 hx)
      exact h a ha
    clear h
    revert hs this
    generalize ω.perm site (l.map f) = m
    induction m with
    | nil => intro hs _; simp [seqE] at hs
    | cons x m ih =>
      intro hs hm
      obtain ⟨b, rfl⟩ := hm x (List.mem_cons_self ..)
      simp only [seqE] at hs
      cases hm' : seqE m with
      | ok as => rw [hm'] at hs; simp at hs
      | error e' =>
        rw [hm'] at hs
        simp only [Except.error.injEq] at hs
        subst hs
        exact ih hm' (fun x hx => hm x (List.mem_cons_of_mem _ hx))

/-- Converting a well-formed traversal succeeds. -/
theorem toIR_ok (ω : Hash) (n : Nat) : ∀ (c : CTrav) (K : Groups) (path : List String),
    RepN schema frags n c K → ∃ ps, c.toIR ω path = .ok ps := by
  induction n with
  | zero => intro c K path h; exact h.elim
  | succ n ih =>
    intro c K path h
    obtain ⟨tn, lk, objs⟩ := c
    unfold CTrav.toIR
    rw [objsToIR_eq]
    have hall : ∀ o ∈ objs, ∃ b, objIR ω path o = .ok b := by
      intro o ho
      obtain ⟨T, fs⟩ := o
      have hf := h.2 T fs ho
      unfold objIR
      rw [entriesToIR_eq]
      obtain ⟨bs, hbs⟩ := seqE_perm_ok ω ("ir.rs:271" :: (Obj.mk T fs).typeName :: path)
        (entryIR ω ((Obj.mk T fs).typeName :: path)) (Obj.mk T fs).fields (by
          intro e he
          obtain ⟨h1, h2⟩ := hf.entry e he
          cases hg : K T e.id with
          | nil => rw [hg] at h1; simp at h1
          | cons x xs =>
            have hx := hf.good e.id x (by rw [hg]; exact List.mem_cons_self ..)
            rw [hg] at h1
            simp only [List.head?_cons, Option.map_some, Option.some.injEq] at h1
            unfold entryIR
            cases ht : e.trav with
            | terminal tn =>
              rw [ht] at h2
              have hnc : ¬ e.field.type.definition.isComplex = true := by
                rw [← h1]; exact fun hc => h2.1 (hx.2.2.1 hc)
              have hni := hx.2.1
              rw [h1] at hni
              unfold typeIrForField
              cases hd : e.field.type.definition <;> simp_all [FieldTypeDef.isComplex]
            | complex sub =>
              rw [ht] at h2
              obtain ⟨h3, h4, h5, h6, K', h7, h8⟩ := h2
              have hc : e.field.type.definition.isComplex = true := by
                rw [← h1]; refine hx.2.2.2 ?_; unfold IsComposite; rw [h5]; rfl
              obtain ⟨ps, hps⟩ := ih sub K' (e.id.1 :: (Obj.mk T fs).typeName :: path) h7
              unfold typeIrForField
              cases hd : e.field.type.definition <;> simp_all [FieldTypeDef.isComplex])
      rw [hbs]
      exact ⟨_, rfl⟩
    obtain ⟨bs, hbs⟩ := seqE_perm_ok ω ("ir.rs:381" :: path) (objIR ω path) objs hall
    rw [hbs]
    exact ⟨_, rfl⟩

theorem sortBy_map_key {α : Type} (key : α → String) (l : List α) :
    (sortBy key l).map key = sortStr (l.map key) := by
  have hins : ∀ (x : α) (m : List α), (insertBy key x m).map key = insertBy id (key x) (m.map key) := by
    intro x m
    induction m with
    | nil => rfl
    | cons y m ih =>
      simp only [insertBy, List.map_cons, id]
      split
      · rfl
      · rw [List.map_cons, ih]
  induction l with
  | nil => rfl
  | cons x l ih =>
    simp only [sortBy, List.map_cons, sortStr, hins]
    rw [ih]
    rfl

theorem pairwise_lt_of_sorted_nodup : ∀ {l : List String}, l.Pairwise (· ≤ ·) → l.Nodup →
    l.Pairwise (· < ·) := by
  intro l h1 h2
  induction l with
  | nil => exact .nil
  | cons a l ih =>
    rw [List.pairwise_cons] at h1 ⊢
    rw [List.nodup_cons] at h2
    refine ⟨?_, ih h1.2 h2.2⟩
    intro b hb
    rcases Decidable.em (a < b) with h | h
    · exact h
    · have := str_le_antisymm (h1.1 b hb) (String.not_lt.1 h)
      exact absurd (this ▸ hb) h2.1

/-- The collector of the compiler. -/
abbrev collectorX (schema : Schema) (frags : Frags) : Collector :=
  fun T P sets L => CollManyX schema frags T P sets L

theorem cid_filter (L : List Contribution) (s : String × String) :
    L.filter (fun x => decide (cid x = s)) = sameSlot L s.1 s.2 := by
  unfold sameSlot cid
  congr 1
  funext c
  obtain ⟨a, b⟩ := s
  simp [Prod.ext_iff]

/-- The generated tree is that of the represented selections. -/
theorem toIR_tree (ω : Hash) (n : Nat) : ∀ (m : Nat) (c : CTrav) (K : Groups) (path : List String)
    (ps : List Complex) (P : String) (sets : List (List Selection)), RepN schema frags n c K →
    c.names = possibleNames schema P →
    (∀ T ∈ c.names, ∃ L, CollManyX schema frags T P sets L ∧
      ∀ id, K T id = L.filter (fun x => cid x = id)) →
    c.toIR ω path = .ok ps → TreeIs schema (collectorX schema frags) m P sets ps := by
  induction n with
  | zero => intro m c K path ps P sets h; exact h.elim
  | succ n ih =>
    intro m c K path ps P sets h hnames hK hir
    cases m with
    | zero => trivial
    | succ m =>
    obtain ⟨tn, lk, objs⟩ := c
    unfold CTrav.toIR at hir
    rw [objsToIR_eq] at hir
    cases hs : seqE (ω.perm ("ir.rs:381" :: path) (objs.map (objIR ω path))) with
    | error e => rw [hs] at hir; simp at hir
    | ok cs =>
      rw [hs] at hir
      simp only [Except.ok.injEq] at hir
      subst hir
      obtain ⟨objs', hperm, hF⟩ := seqE_perm ω _ _ _ _ hs
      have hobj : ∀ o b, objIR ω path o = .ok b → b.name = o.typeName := by
        intro o b hb
        unfold objIR at hb
        split at hb
        · simp at hb
        · injection hb with e; subst e; rfl
      have hcsn : cs.map Complex.name = objs'.map Obj.typeName := by
        clear hs hperm
        induction hF with
        | nil => rfl
        | cons h1 _ ih => simp only [List.map_cons, hobj _ _ h1, ih]
      have hnm : (CTrav.mk tn lk objs).names = objs.map Obj.typeName := rfl
      have hpn : ((sortBy Complex.name cs).map Complex.name).Perm (objs.map Obj.typeName) := by
        refine ((sortBy_perm Complex.name cs).map _).trans ?_
        rw [hcsn]
        exact hperm.map _
      refine ⟨?_, ?_, ?_⟩
      · apply pairwise_lt_of_sorted_nodup
        · have := sortBy_sorted Complex.name cs
          unfold SortedBy at this
          rwa [List.pairwise_map]
        · rw [hpn.nodup_iff, ← hnm]; exact h.1
      · intro T
        rw [hpn.mem_iff, ← hnm, hnames, mem_possibleNames]
      · intro T fields hmem
        have hmem' : Complex.mk T fields ∈ cs := (sortBy_perm Complex.name cs).mem_iff.1 hmem
        -- the object it comes from
        obtain ⟨o, ho, hoir⟩ : ∃ o ∈ objs', objIR ω path o = .ok (Complex.mk T fields) := by
          clear hcsn hpn hs hperm hmem
          induction hF with
          | nil => simp at hmem'
          | cons h1 _ ih =>
            rcases List.mem_cons.1 hmem' with e | e
            · subst e; exact ⟨_, List.mem_cons_self .., h1⟩
            · obtain ⟨o, ho, h2⟩ := ih e
              exact ⟨o, List.mem_cons_of_mem _ ho, h2⟩
        have hom := hperm.mem_iff.1 ho
        have hT := hobj _ _ hoir
        obtain ⟨T', fs⟩ := o
        have hT : T = T' := hT
        subst hT
        obtain ⟨L, hL, hKL⟩ := hK T (List.mem_map.2 ⟨_, hom, rfl⟩)
        have hRF := h.2 T fs hom
        refine ⟨L, hL, ?_⟩
        unfold objIR at hoir
        rw [entriesToIR_eq] at hoir
        simp only [Obj.typeName_mk, Obj.fields_mk] at hoir
        cases hs2 : seqE (ω.perm ("ir.rs:271" :: T :: path) (fs.map (entryIR ω (T :: path)))) with
        | error e => rw [hs2] at hoir; simp at hoir
        | ok irs =>
          rw [hs2] at hoir
          simp only [Except.ok.injEq, Complex.mk.injEq, true_and] at hoir
          subst hoir
          obtain ⟨fs', hperm2, hF2⟩ := seqE_perm ω _ _ _ _ hs2
          -- sort along
          obtain ⟨fs'', hperm3, hF3⟩ : ∃ fs'' : List FEntry, fs''.Perm fs' ∧
              List.Forall₂ (fun a b => entryIR ω (T :: path) a = .ok b) fs''
                (sortBy IRField.propName irs) := by
            have hflip : List.Forall₂ (fun b a => entryIR ω (T :: path) a = .ok b) irs fs' :=
              hF2.flip
            obtain ⟨w, hw1, hw2⟩ := List.perm_comp_forall₂ (sortBy_perm IRField.propName irs) hflip
            exact ⟨w, hw2, hw1.flip⟩
          have hpf : fs''.Perm fs := hperm3.trans hperm2
          refine ⟨sortBy_sorted IRField.propName irs, fs''.map FEntry.id,
            (hpf.map FEntry.id).nodup_iff.2 hRF.nodup, ?_, ?_⟩
          · intro s
            rw [(hpf.map FEntry.id).mem_iff, hRF.slots s, hKL s]
            constructor
            · intro hne
              obtain ⟨c, hc⟩ := List.exists_mem_of_ne_nil _ hne
              have := List.mem_filter.1 hc
              exact ⟨c, this.1, of_decide_eq_true this.2⟩
            · rintro ⟨c, hc, he⟩ hnil
              have : c ∈ L.filter (fun x => decide (cid x = s)) :=
                List.mem_filter.2 ⟨hc, decide_eq_true he⟩
              rw [hnil] at this
              simp at this
          · rw [List.forall₂_map_left_iff]
            have hsub : ∀ e ∈ fs'', e ∈ fs := fun e he => hpf.mem_iff.1 he
            clear hpf hperm3
            revert hsub
            generalize sortBy IRField.propName irs = flds at hF3
            induction hF3 with
            | nil => intro _; exact .nil
            | @cons e fld es flds h1 _ ih2 =>
              intro hsub
              refine .cons ?_ (ih2 (fun e he => hsub e (List.mem_cons_of_mem _ he)))
              have hin := hsub e (List.mem_cons_self ..)
              obtain ⟨hh, htr⟩ := hRF.entry e hin
              have hgood := hRF.good e.id
              rw [hKL] at hh htr hgood
              rw [cid_filter] at hh htr hgood
              unfold FieldIs
              cases hcs : sameSlot L e.id.1 e.id.2 with
              | nil => rw [hcs] at hh; simp at hh
              | cons x xs =>
                rw [hcs] at hh htr hgood
                simp only [List.head?_cons, Option.map_some, Option.some.injEq] at hh
                have hx := hgood x (List.mem_cons_self ..)
                have hidx : cid x = e.id := hx.1
                unfold entryIR at h1
                have hk : x.key = e.id.1 := by rw [← hidx]; rfl
                have htn : x.field.type.name = e.id.2 := by rw [← hidx]; rfl
                cases hty : typeIrForField ω (e.id.1 :: T :: path) e.field e.trav with
                | error er => rw [hty] at h1; simp at h1
                | ok ty =>
                  rw [hty] at h1
                  simp only [Except.ok.injEq] at h1
                  subst h1
                  refine ⟨x, xs, rfl, by simp [IRField.propName, hk], by
                    simp [IRField.documentation, hh], by simp [IRField.deprecated, hh], by
                    simp [IRField.last, hh], by simp [IRField.rest, hh], ?_⟩
                  simp only [IRField.type]
                  cases ht : e.trav with
                  | terminal tn =>
                    rw [ht] at htr hty
                    have hnc : ¬ x.field.type.definition.isComplex = true :=
                      fun hc => htr.1 (hx.2.2.1 hc)
                    unfold typeIrForField at hty
                    rw [← hh] at hty
                    cases hd : x.field.type.definition <;> rw [hd] at hty hnc <;>
                      simp [FieldTypeDef.isComplex] at hty hnc <;> subst hty <;>
                      simp [TypeIs, hd]
                  | complex sub =>
                    rw [ht] at htr hty
                    obtain ⟨h3, h4, h5, h6, K', h7, h8⟩ := htr
                    have hc : x.field.type.definition.isComplex = true := by
                      refine hx.2.2.2 ?_; unfold IsComposite; rw [h5]; rfl
                    unfold typeIrForField at hty
                    rw [← hh] at hty
                    cases hsi : sub.toIR ω (e.id.1 :: T :: path) with
                    | error er =>
                      rw [hsi] at hty
                      cases hd : x.field.type.definition <;> rw [hd] at hty hc <;>
                        simp [FieldTypeDef.isComplex] at hty hc
                    | ok sps =>
                      rw [hsi] at hty
                      have hrec := ih m sub K' (e.id.1 :: T :: path) sps e.id.2
                        ((x :: xs).map Contribution.items) h7 h6 h8 hsi
                      have : ty = .complex sps := by
                        cases hd : x.field.type.definition <;> rw [hd] at hty hc <;>
                          simp [FieldTypeDef.isComplex] at hty hc <;> exact hty.symm
                      subst this
                      refine ⟨hc, ?_⟩
                      rw [htn]
                      exact hrec

end Qlc
