import Verif.Spec.Emit
import Verif.Lemmas.Basic
import Mathlib.Data.List.Nodup
import Mathlib.Data.List.Forall2
import Mathlib.Tactic.Tauto
/-
The generated definitions as data, and that the generated text is the text of that data.
-/
set_option autoImplicit false

namespace Qlc
open Spec

/-! ### Definitions as data -/

/-- A possibility with the declarations of its body, given the `__typename` literals and a path. -/
structure APoss where
  name : String
  props : List String
  decls : List String → String → List TsDecl

/-- The possibilities that are merged into one alternative. -/
def repNames (all : List (String × List String)) : List String :=
  ((all.filter (fun p => sameSet (commonProps (all.map Prod.snd)) p.2)).map Prod.fst).foldl setInsert []

/-- `genCollection` as data.  Generation fails for an empty collection; the data has an empty union. -/
def aColl (ps : List APoss) (main : String) : List TsDecl :=
  match ps with
  | [] => [.union main []]
  | [p] => p.decls [p.name] main
  | first :: second :: more =>
    let all := first :: second :: more
    let repeated := repNames (all.map (fun p => (p.name, p.props)))
    if all.length = repeated.length then first.decls (sortStr repeated) main
    else
      let distinct := all.filter (fun p => decide (p.name ∉ repeated))
      let ds := distinct.flatMap (fun p => p.decls [p.name] (main ++ "_" ++ p.name))
      let names := distinct.map (fun p => main ++ "_" ++ p.name)
      match (all.filter (fun p => p.name ∈ repeated)).getLast? with
      | none => ds ++ [.union main names]
      | some rep =>
        ds ++ rep.decls (sortStr repeated) (main ++ "_$$other") ++
          [.union main (names ++ [main ++ "_$$other"])]

mutual
/-- `genFields` as data. -/
def aFields (cfg : TsConfig) (lits : List String) (path : String) :
    List IRField → List TsDecl × List TsProp
  | [] => ([], [])
  | .mk prop doc dep last mods ty :: rest =>
    ((aType cfg lits (path ++ "_" ++ prop) ty).1 ++ (aFields cfg lits path rest).1,
      ⟨prop, doc, dep, last, mods, (aType cfg lits (path ++ "_" ++ prop) ty).2⟩ ::
        (aFields cfg lits path rest).2)
/-- `genFieldType` as data. -/
def aType (cfg : TsConfig) (lits : List String) (subPath : String) : IRType → List TsDecl × Flat
  | .complex ps => (aColl (aPoss cfg ps) subPath, .declared subPath)
  | .enum name => ([], .global name)
  | .scalar s => ([], scalarFlat cfg s)
  | .typeName => ([], .literals lits)
/-- `possOf` as data. -/
def aPoss (cfg : TsConfig) : List Complex → List APoss
  | [] => []
  | .mk name fields :: rest =>
    ⟨name, fieldIds fields, fun lits path =>
      (aFields cfg lits path fields).1 ++ [.object path (aFields cfg lits path fields).2]⟩ ::
      aPoss cfg rest
end

/-- The enums that some declarations refer to. -/
def enumsIn (ds : List TsDecl) : List String :=
  ds.flatMap (fun d => match d with
    | .object _ props => props.flatMap (fun p => match p.flat with | .global n => [n] | _ => [])
    | .union _ _ => [])

/-- The enums that some properties refer to. -/
def enumsInProps (ps : List TsProp) : List String :=
  ps.flatMap (fun p => match p.flat with | .global n => [n] | _ => [])

/-! ### Text of literals -/

theorem literals_text : ∀ (ns : List String), ns ≠ [] →
    Flat.text (.literals ns) = "\"" ++ joinWith "\" | \"" ns ++ "\""
  | [], h => absurd rfl h
  | [n], _ => rfl
  | n :: m :: rest, _ => by
    have ih := literals_text (m :: rest) (by simp)
    have e1 : Flat.text (.literals (n :: m :: rest)) =
        "\"" ++ n ++ "\"" ++ " | " ++ Flat.text (.literals (m :: rest)) := rfl
    have e2 : joinWith "\" | \"" (n :: m :: rest) = n ++ "\" | \"" ++ joinWith "\" | \"" (m :: rest) := rfl
    rw [e1, e2, ih]
    apply String.toList_inj.1
    simp

theorem scalarFlat_text (cfg : TsConfig) (s : ScalarType) :
    (scalarFlat cfg s).text = typeNameFromScalar cfg s := by
  cases s with
  | custom n =>
    unfold scalarFlat typeNameFromScalar compileCustomScalarName
    cases cfg.bottomTypeConfig <;> rfl
  | _ => rfl

/-! ### The repeated possibilities -/

theorem sortStr_perm (l : List String) : (sortStr l).Perm l := sortBy_perm id l

theorem sortStr_ne_nil {l : List String} (h : l ≠ []) : sortStr l ≠ [] := by
  intro e
  have := (sortStr_perm l).length_eq
  rw [e] at this
  exact h (List.length_eq_zero_iff.1 this.symm)

theorem sortStr_iter (ω : Hash) (site : List String) (l : List String) :
    sortStr (ω.perm site l) = sortStr l := sortStr_eq_of_perm (ω.isPerm site l)

/-! ### The generated text is the text of the data -/

theorem enumsIn_append (a b : List TsDecl) : enumsIn (a ++ b) = enumsIn a ++ enumsIn b := by
  unfold enumsIn; rw [List.flatMap_append]

theorem enumsIn_nil : enumsIn [] = [] := rfl

theorem enumsIn_object (n : String) (ps : List TsProp) : enumsIn [.object n ps] = enumsInProps ps := by
  simp [enumsIn, enumsInProps]

theorem enumsIn_union (n : String) (as : List String) : enumsIn [.union n as] = [] := rfl

/-- `g'` is `g` with some names added. -/
def Adds (g g' new : List String) : Prop :=
  (∀ x, x ∈ g' ↔ x ∈ g ∨ x ∈ new) ∧ (g.Nodup → g'.Nodup)

theorem Adds.refl (g : List String) : Adds g g [] := ⟨by simp, id⟩

theorem Adds.trans {g g' g'' a b : List String} (h : Adds g g' a) (h' : Adds g' g'' b) :
    Adds g g'' (a ++ b) := by
  refine ⟨fun x => ?_, fun hn => h'.2 (h.2 hn)⟩
  rw [h'.1, h.1, List.mem_append]
  tauto

theorem Adds.congr {g g' a b : List String} (h : Adds g g' a) (he : ∀ x, x ∈ a ↔ x ∈ b) : Adds g g' b :=
  ⟨fun x => by rw [h.1, he], h.2⟩

theorem Adds.one (g : List String) (n : String) : Adds g (setInsert g n) [n] :=
  ⟨fun x => by rw [mem_setInsert, List.mem_singleton], nodup_setInsert _ _⟩

/-- The names some declarations refer to within the file. -/
def refsIn (ds : List TsDecl) : List String :=
  ds.flatMap (fun d => match d with
    | .object _ props => props.flatMap (fun p => match p.flat with | .declared n => [n] | _ => [])
    | .union _ alts => alts)

/-- The names some properties refer to within the file. -/
def refsInProps (ps : List TsProp) : List String :=
  ps.flatMap (fun p => match p.flat with | .declared n => [n] | _ => [])

/-- Every reference is declared, and no union is empty. -/
def Closed (ds : List TsDecl) : Prop :=
  (∀ n ∈ refsIn ds, n ∈ ds.map TsDecl.name) ∧ ∀ n, TsDecl.union n [] ∉ ds

theorem refsIn_append (a b : List TsDecl) : refsIn (a ++ b) = refsIn a ++ refsIn b := by
  unfold refsIn; rw [List.flatMap_append]

theorem refsIn_object (n : String) (ps : List TsProp) : refsIn [.object n ps] = refsInProps ps := by
  simp [refsIn, refsInProps]

theorem refsIn_union (n : String) (as : List String) : refsIn [.union n as] = as := by
  simp [refsIn]

theorem Closed.append {a b : List TsDecl} (h : Closed a) (h' : Closed b) : Closed (a ++ b) := by
  constructor
  · intro n hn
    rw [refsIn_append, List.mem_append] at hn
    rw [List.map_append, List.mem_append]
    exact hn.imp (h.1 n) (h'.1 n)
  · intro n hn
    exact (List.mem_append.1 hn).elim (h.2 n) (h'.2 n)

theorem Closed.append' {a b : List TsDecl} (h : Closed a)
    (h' : ∀ n ∈ refsIn b, n ∈ a.map TsDecl.name ∨ n ∈ b.map TsDecl.name)
    (hu : ∀ n, TsDecl.union n [] ∉ b) : Closed (a ++ b) := by
  constructor
  · intro n hn
    rw [refsIn_append, List.mem_append] at hn
    rw [List.map_append, List.mem_append]
    rcases hn with hn | hn
    · exact .inl (h.1 n hn)
    · exact h' n hn
  · intro n hn
    exact (List.mem_append.1 hn).elim (h.2 n) (hu n)

theorem closed_nil : Closed [] := ⟨by intro n hn; simp [refsIn] at hn, by simp⟩

/-- A text generator agrees with declarations as data, and the data refers only to itself. -/
def Agrees (ro : Bool) (gen : TsM (List String)) (ds : List TsDecl) : Prop :=
  ∀ g out g', gen g = .ok (out, g') →
    out = ds.map (TsDecl.text ro) ∧ Adds g g' (enumsIn ds) ∧ Closed ds

/-- A possibility agrees with its data. -/
def PossAgree (ro : Bool) (p : Poss) (a : APoss) : Prop :=
  p.name = a.name ∧ p.props = a.props ∧ (∀ lits path, path ∈ (a.decls lits path).map TsDecl.name) ∧
    ∀ lits path, lits ≠ [] → Agrees ro (p.gen (joinWith "\" | \"" lits) path) (a.decls lits path)

theorem rep_eq {ro : Bool} {ps : List Poss} {as : List APoss} (h : List.Forall₂ (PossAgree ro) ps as) :
    ((ps.filter (fun p => sameSet (commonProps (ps.map Poss.props)) p.props)).map Poss.name).foldl
      setInsert [] = repNames (as.map (fun p => (p.name, p.props))) := by
  have h1 : ps.map (fun p => (p.name, p.props)) = as.map (fun p => (p.name, p.props)) := by
    induction h with
    | nil => rfl
    | cons h _ ih => simp only [List.map_cons]; rw [ih, h.1, h.2.1]
  rw [← h1]
  unfold repNames
  simp only [List.map_map, List.filter_map]
  rfl

theorem genDistinct_agrees {ro : Bool} {main : String} {rep : List String} {ps : List Poss}
    {as : List APoss} (h : List.Forall₂ (PossAgree ro) ps as) :
    ∀ (defs names g : List String) (out : List String × List String) (g' : List String),
    genDistinct main rep ps defs names g = .ok (out, g') →
    out.1 = defs ++ ((as.filter (fun p => decide (p.name ∉ rep))).flatMap
      (fun p => p.decls [p.name] (main ++ "_" ++ p.name))).map (TsDecl.text ro) ∧
    out.2 = names ++ (as.filter (fun p => decide (p.name ∉ rep))).map (fun p => main ++ "_" ++ p.name) ∧
    Adds g g' (enumsIn ((as.filter (fun p => decide (p.name ∉ rep))).flatMap
      (fun p => p.decls [p.name] (main ++ "_" ++ p.name)))) ∧
    Closed ((as.filter (fun p => decide (p.name ∉ rep))).flatMap
      (fun p => p.decls [p.name] (main ++ "_" ++ p.name))) ∧
    ∀ n ∈ (as.filter (fun p => decide (p.name ∉ rep))).map (fun p => main ++ "_" ++ p.name),
      n ∈ ((as.filter (fun p => decide (p.name ∉ rep))).flatMap
        (fun p => p.decls [p.name] (main ++ "_" ++ p.name))).map TsDecl.name := by
  induction h with
  | nil =>
    intro defs names g out g' h
    unfold genDistinct at h
    injection h with h
    injection h with h1 h2
    subst h1; subst h2
    simp [enumsIn_nil, Adds.refl, closed_nil]
  | @cons p a ps as hp _ ih =>
    intro defs names g out g' h
    unfold genDistinct at h
    rw [hp.1] at h
    by_cases hm : a.name ∈ rep
    · rw [if_pos hm] at h
      have := ih defs names g out g' h
      rw [List.filter_cons_of_neg (by simpa using hm)]
      exact this
    · rw [if_neg hm] at h
      simp only at h
      cases hg : p.gen a.name (main ++ "_" ++ a.name) g with
      | error e => rw [hg] at h; simp at h
      | ok r =>
        obtain ⟨ds, g₁⟩ := r
        rw [hg] at h
        simp only at h
        obtain ⟨e1, e2, e3⟩ := hp.2.2.2 [a.name] (main ++ "_" ++ a.name) (by simp) g ds g₁ hg
        obtain ⟨k1, k2, k3, k4, k5⟩ := ih _ _ _ _ _ h
        rw [List.filter_cons_of_pos (by simpa using hm)]
        simp only [List.flatMap_cons, List.map_cons, List.map_append, enumsIn_append]
        refine ⟨?_, ?_, e2.trans k3, e3.append k4, ?_⟩
        · rw [k1, e1, List.append_assoc]
        · rw [k2, List.append_assoc]; rfl
        · intro n hn
          rw [List.mem_append]
          rcases List.mem_cons.1 hn with rfl | hn
          · exact .inl (hp.2.2.1 _ _)
          · exact .inr (k5 n hn)

theorem filter_last_agrees {ro : Bool} {rep : List String} {ps : List Poss}
    {as : List APoss} (h : List.Forall₂ (PossAgree ro) ps as) :
    Option.Rel (PossAgree ro) (ps.filter (fun p => p.name ∈ rep)).getLast?
      (as.filter (fun p => p.name ∈ rep)).getLast? := by
  have : List.Forall₂ (PossAgree ro) (ps.filter (fun p => p.name ∈ rep))
      (as.filter (fun p => p.name ∈ rep)) := by
    induction h with
    | nil => exact .nil
    | @cons p a ps as hp _ ih =>
      by_cases hm : a.name ∈ rep
      · rw [List.filter_cons_of_pos (by simpa [hp.1] using hm),
          List.filter_cons_of_pos (by simpa using hm)]
        exact .cons hp ih
      · rw [List.filter_cons_of_neg (by simpa [hp.1] using hm),
          List.filter_cons_of_neg (by simpa using hm)]
        exact ih
  generalize (ps.filter (fun p => p.name ∈ rep)) = l at this
  generalize (as.filter (fun p => p.name ∈ rep)) = l' at this
  induction this with
  | nil => exact .none
  | @cons p a l l' hp hl ih =>
    cases hl with
    | nil => exact .some hp
    | cons h1 h2 => simpa [List.getLast?_cons_cons] using ih

theorem repNames_ne {all : List (String × List String)} (h : 2 ≤ all.length)
    (he : all.length = (repNames all).length) : repNames all ≠ [] := by
  intro e
  rw [e] at he
  simp at he
  subst he
  simp at h

theorem mem_repNames {all : List (String × List String)} {x : String} :
    x ∈ repNames all ↔ ∃ ps, (x, ps) ∈ all ∧ sameSet (commonProps (all.map Prod.snd)) ps = true := by
  unfold repNames
  rw [mem_foldl_setInsert]
  simp

theorem genCollection_agrees (ω : Hash) {ro : Bool} {ps : List Poss} {as : List APoss}
    (h : List.Forall₂ (PossAgree ro) ps as) (main : String) :
    Agrees ro (genCollection ω ps main) (aColl as main) := by
  intro g out g' hg
  cases h with
  | nil => simp [genCollection] at hg
  | @cons p a ps as hp hps =>
    cases hps with
    | nil =>
      simp only [genCollection] at hg
      rw [hp.1] at hg
      have := hp.2.2.2 [a.name] main (by simp) g out g' hg
      simpa [aColl] using this
    | @cons p₂ a₂ ps as hp₂ hps =>
      have hall : List.Forall₂ (PossAgree ro) (p :: p₂ :: ps) (a :: a₂ :: as) := .cons hp (.cons hp₂ hps)
      have hlen : (p :: p₂ :: ps).length = (a :: a₂ :: as).length := hall.length_eq
      have hrep := rep_eq hall
      unfold genCollection at hg
      simp only at hg
      rw [hrep] at hg
      unfold aColl
      simp only
      generalize hR : repNames ((a :: a₂ :: as).map (fun p => (p.name, p.props))) = R at hg ⊢
      rw [hlen] at hg
      by_cases he : (a :: a₂ :: as).length = R.length
      · rw [if_pos he] at hg ⊢
        unfold genSmoosh at hg
        rw [sortStr_iter] at hg
        refine hp.2.2.2 (sortStr R) main ?_ g out g' hg
        apply sortStr_ne_nil
        rintro rfl
        simp at he
      · rw [if_neg he] at hg ⊢
        cases hd : genDistinct main R (p :: p₂ :: ps) [] [] g with
        | error e => rw [hd] at hg; simp at hg
        | ok r =>
          obtain ⟨⟨defs, names⟩, g₁⟩ := r
          rw [hd] at hg
          simp only at hg
          obtain ⟨k1, k2, k3, k4, k5⟩ := genDistinct_agrees hall _ _ _ _ _ hd
          simp only [List.nil_append] at k1 k2
          have hlast := filter_last_agrees (rep := R) hall
          revert hlast hg
          cases hl : ((p :: p₂ :: ps).filter (fun p => decide (p.name ∈ R))).getLast? with
          | none =>
            intro hg hlast
            cases hl' : ((a :: a₂ :: as).filter (fun p => decide (p.name ∈ R))).getLast? with
            | some _ => rw [hl'] at hlast; cases hlast
            | none =>
              simp only at hg ⊢
              injection hg with hg
              injection hg with h1 h2
              subst h1; subst h2
              rw [k1, k2]
              refine ⟨?_, ?_, ?_⟩
              · rw [List.map_append]; rfl
              · rw [enumsIn_append, enumsIn_union]
                simpa using k3
              · refine k4.append' ?_ ?_
                · intro n hn
                  rw [refsIn_union] at hn
                  exact .inl (k5 n hn)
                · intro n hn
                  rw [List.mem_singleton] at hn
                  injection hn with _ hn
                  have hn := List.map_eq_nil_iff.1 hn.symm
                  rw [List.filter_eq_nil_iff] at hn
                  rw [List.getLast?_eq_none_iff, List.filter_eq_nil_iff] at hl'
                  have h1 := hn a (by simp)
                  have h2 := hl' a (by simp)
                  simp only [decide_eq_true_eq, not_not] at h1 h2
                  exact h2 h1
          | some rep =>
            intro hg hlast
            cases hl' : ((a :: a₂ :: as).filter (fun p => decide (p.name ∈ R))).getLast? with
            | none => rw [hl'] at hlast; cases hlast
            | some arep =>
              rw [hl'] at hlast
              cases hlast with
              | some hr =>
                simp only at hg ⊢
                unfold genSmoosh at hg
                rw [sortStr_iter] at hg
                cases hs : rep.gen (joinWith "\" | \"" (sortStr R)) (main ++ "_$$other") g₁ with
                | error e => rw [hs] at hg; simp at hg
                | ok r =>
                  obtain ⟨ds, g₂⟩ := r
                  rw [hs] at hg
                  simp only at hg
                  injection hg with hg
                  injection hg with h1 h2
                  subst h1; subst h2
                  have hR' : sortStr R ≠ [] := by
                    apply sortStr_ne_nil
                    have hm : arep ∈ (a :: a₂ :: as).filter (fun p => decide (p.name ∈ R)) :=
                      List.mem_of_getLast? hl'
                    have := (List.mem_filter.1 hm).2
                    rintro rfl
                    simp at this
                  obtain ⟨e1, e2, e3⟩ := hr.2.2.2 (sortStr R) (main ++ "_$$other") hR' g₁ ds g₂ hs
                  rw [k1, k2, e1]
                  refine ⟨?_, ?_, ?_⟩
                  · rw [List.map_append, List.map_append]; rfl
                  · rw [enumsIn_append, enumsIn_union, enumsIn_append]
                    simpa using k3.trans e2
                  · refine (k4.append e3).append' ?_ (by simp)
                    intro n hn
                    rw [refsIn_union, List.mem_append, List.mem_singleton] at hn
                    refine .inl ?_
                    rw [List.map_append, List.mem_append]
                    rcases hn with hn | rfl
                    · exact .inl (k5 n hn)
                    · exact .inr (hr.2.2.1 _ _)

/-- A generated collection declares the name it is generated under. -/
theorem genCollection_declares (ω : Hash) {ro : Bool} {ps : List Poss} {as : List APoss}
    (h : List.Forall₂ (PossAgree ro) ps as) {main : String} {g : List String}
    {r : List String × List String} (hg : genCollection ω ps main g = .ok r) :
    main ∈ (aColl as main).map TsDecl.name := by
  cases h with
  | nil => simp [genCollection] at hg
  | @cons p a ps as hp hps =>
    cases hps with
    | nil => exact hp.2.2.1 _ _
    | @cons p₂ a₂ ps as hp₂ hps =>
      unfold aColl
      simp only
      split
      · exact hp.2.2.1 _ _
      · split <;> simp [TsDecl.name]

mutual
theorem genFields_agrees (ω : Hash) (cfg : TsConfig) (lits : List String) (path : String)
    (hl : lits ≠ []) : ∀ (fs : List IRField) (g : List String) (out : List String × List String)
    (g' : List String),
    genFields ω cfg (joinWith "\" | \"" lits) path fs g = .ok (out, g') →
    out.1 = (aFields cfg lits path fs).1.map (TsDecl.text cfg.useReadonlyTypes) ∧
    out.2 = (aFields cfg lits path fs).2.map (TsProp.text cfg.useReadonlyTypes) ∧
    Adds g g' (enumsIn (aFields cfg lits path fs).1 ++ enumsInProps (aFields cfg lits path fs).2) ∧
    Closed (aFields cfg lits path fs).1 ∧
    ∀ n ∈ refsInProps (aFields cfg lits path fs).2, n ∈ (aFields cfg lits path fs).1.map TsDecl.name
  | [], g, out, g', h => by
    unfold genFields at h
    injection h with h
    injection h with h1 h2
    subst h1; subst h2
    unfold aFields
    simp [enumsIn, enumsInProps, Adds.refl, closed_nil, refsInProps]
  | .mk prop doc dep last mods ty :: rest, g, out, g', h => by
    unfold genFields at h
    cases ht : genFieldType ω cfg (joinWith "\" | \"" lits) (path ++ "_" ++ prop) ty g with
    | error e => simp only [ht] at h; simp at h
    | ok r =>
      obtain ⟨⟨ds, flat⟩, g₁⟩ := r
      simp only [ht] at h
      cases hr : genFields ω cfg (joinWith "\" | \"" lits) path rest g₁ with
      | error e => simp only [hr] at h; simp at h
      | ok r =>
        obtain ⟨⟨ds', ps⟩, g₂⟩ := r
        simp only [hr] at h
        injection h with h
        injection h with h1 h2
        subst h1; subst h2
        obtain ⟨e1, e2, e3, e4, e5⟩ :=
          genFieldType_agrees ω cfg lits (path ++ "_" ++ prop) hl ty _ _ _ ht
        obtain ⟨k1, k2, k3, k4, k5⟩ := genFields_agrees ω cfg lits path hl rest _ _ _ hr
        simp only at e1 e2 k1 k2
        unfold aFields
        simp only
        refine ⟨?_, ?_, ?_, e4.append k4, ?_⟩
        · rw [e1, k1, List.map_append]
        · rw [e2, k2]; rfl
        · refine (e3.trans k3).congr ?_
          intro x
          rw [enumsIn_append]
          simp only [enumsInProps, List.flatMap_cons, List.mem_append]
          tauto
        · intro n hn
          simp only [refsInProps, List.flatMap_cons, List.mem_append] at hn
          rw [List.map_append, List.mem_append]
          rcases hn with hn | hn
          · refine .inl (e5 n ?_)
            revert hn
            cases (aType cfg lits (path ++ "_" ++ prop) ty).2 <;> simp
            exact Eq.symm
          · exact .inr (k5 n hn)
theorem genFieldType_agrees (ω : Hash) (cfg : TsConfig) (lits : List String) (subPath : String)
    (hl : lits ≠ []) : ∀ (ty : IRType) (g : List String) (out : List String × String)
    (g' : List String),
    genFieldType ω cfg (joinWith "\" | \"" lits) subPath ty g = .ok (out, g') →
    out.1 = (aType cfg lits subPath ty).1.map (TsDecl.text cfg.useReadonlyTypes) ∧
    out.2 = (aType cfg lits subPath ty).2.text ∧
    Adds g g' (enumsIn (aType cfg lits subPath ty).1 ++
      (match (aType cfg lits subPath ty).2 with | .global n => [n] | _ => [])) ∧
    Closed (aType cfg lits subPath ty).1 ∧
    ∀ n, (aType cfg lits subPath ty).2 = .declared n → n ∈ (aType cfg lits subPath ty).1.map TsDecl.name
  | .complex ps, g, out, g', h => by
    unfold genFieldType at h
    cases hg : genCollection ω (possOf ω cfg ps) subPath g with
    | error e => simp only [hg] at h; simp at h
    | ok r =>
      obtain ⟨ds, g₁⟩ := r
      simp only [hg] at h
      injection h with h
      injection h with h1 h2
      subst h1; subst h2
      obtain ⟨e1, e2, e3⟩ := genCollection_agrees ω (possOf_agrees ω cfg ps) subPath g ds g₁ hg
      have e4 := genCollection_declares ω (possOf_agrees ω cfg ps) hg
      unfold aType
      refine ⟨e1, rfl, by simpa using e2, e3, ?_⟩
      intro n hn
      injection hn with hn
      rw [← hn]; exact e4
  | .enum n, g, out, g', h => by
    unfold genFieldType at h
    injection h with h
    injection h with h1 h2
    subst h1; subst h2
    unfold aType
    refine ⟨rfl, rfl, ?_, closed_nil, fun n hn => Flat.noConfusion hn⟩
    simpa [enumsIn] using Adds.one g n
  | .scalar s, g, out, g', h => by
    unfold genFieldType at h
    injection h with h
    injection h with h1 h2
    subst h1; subst h2
    unfold aType
    refine ⟨rfl, (scalarFlat_text cfg s).symm, ?_, closed_nil, fun n hn => ?_⟩
    swap
    · exfalso
      cases s with
      | custom m => unfold scalarFlat at hn; revert hn; cases cfg.bottomTypeConfig <;> simp
      | _ => simp [scalarFlat] at hn
    have : (match scalarFlat cfg s with | .global n => [n] | _ => []) = ([] : List String) := by
      cases s with
      | custom n => unfold scalarFlat; cases cfg.bottomTypeConfig <;> rfl
      | _ => rfl
    simpa [enumsIn, this] using Adds.refl g
  | .typeName, g, out, g', h => by
    unfold genFieldType at h
    injection h with h
    injection h with h1 h2
    subst h1; subst h2
    unfold aType
    refine ⟨rfl, (literals_text lits hl).symm, ?_, closed_nil, fun n hn => Flat.noConfusion hn⟩
    simpa [enumsIn] using Adds.refl g
theorem possOf_agrees (ω : Hash) (cfg : TsConfig) : ∀ (ps : List Complex),
    List.Forall₂ (PossAgree cfg.useReadonlyTypes) (possOf ω cfg ps) (aPoss cfg ps)
  | [] => by unfold possOf aPoss; exact .nil
  | .mk name fields :: rest => by
    unfold possOf aPoss
    refine .cons ⟨rfl, rfl, fun _ _ => by simp [TsDecl.name], ?_⟩ (possOf_agrees ω cfg rest)
    intro lits path hl g out g' h
    simp only at h ⊢
    cases hg : genFields ω cfg (joinWith "\" | \"" lits) path fields g with
    | error e => simp only [hg] at h; simp at h
    | ok r =>
      obtain ⟨⟨ds, ps⟩, g₁⟩ := r
      simp only [hg] at h
      injection h with h
      injection h with h1 h2
      subst h1; subst h2
      obtain ⟨e1, e2, e3, e4, e5⟩ := genFields_agrees ω cfg lits path hl fields _ _ _ hg
      simp only at e1 e2
      refine ⟨?_, ?_, ?_⟩
      · rw [List.map_append, e1, e2]; rfl
      · rw [enumsIn_append, enumsIn_object]
        exact e3
      · refine e4.append' ?_ (by simp)
        intro n hn
        rw [refsIn_object] at hn
        exact .inl (e5 n hn)
end

/-! ### Equations without the helper structure -/

/-- The declarations of one object type. -/
def objDecls (cfg : TsConfig) (lits : List String) (path : String) (fields : List IRField) :
    List TsDecl :=
  (aFields cfg lits path fields).1 ++ [.object path (aFields cfg lits path fields).2]

theorem aPoss_eq (cfg : TsConfig) (ps : List Complex) : aPoss cfg ps = ps.map (fun c =>
    ⟨c.name, fieldIds c.fields, fun lits path => objDecls cfg lits path c.fields⟩) := by
  induction ps with
  | nil => unfold aPoss; rfl
  | cons c rest ih =>
    obtain ⟨n, fs⟩ := c
    unfold aPoss
    rw [ih]
    rfl

/-- The properties of one object type. -/
theorem aFields_props (cfg : TsConfig) (lits : List String) (path : String) (fs : List IRField) :
    (aFields cfg lits path fs).2 = fs.map (fun f => ⟨f.propName, f.documentation, f.deprecated, f.last,
      f.rest, (aType cfg lits (path ++ "_" ++ f.propName) f.type).2⟩) := by
  induction fs with
  | nil => unfold aFields; rfl
  | cons f rest ih =>
    obtain ⟨a, b, c, d, e, t⟩ := f
    unfold aFields
    simp only [List.map_cons]
    rw [ih]
    rfl

/-- The declarations below one object type. -/
theorem aFields_decls (cfg : TsConfig) (lits : List String) (path : String) (fs : List IRField) :
    (aFields cfg lits path fs).1 =
      fs.flatMap (fun f => (aType cfg lits (path ++ "_" ++ f.propName) f.type).1) := by
  induction fs with
  | nil => unfold aFields; rfl
  | cons f rest ih =>
    obtain ⟨a, b, c, d, e, t⟩ := f
    unfold aFields
    simp only [List.flatMap_cons]
    rw [ih]
    rfl

/-- The declarations of a collection of alternatives. -/
def collDecls (cfg : TsConfig) (ps : List Complex) (main : String) : List TsDecl := aColl (aPoss cfg ps) main

/-- The alternatives of a collection that are merged. -/
def mergedAlts (ps : List Complex) : List String :=
  repNames (ps.map (fun c => (c.name, fieldIds c.fields)))

theorem collDecls_one (cfg : TsConfig) (T : String) (fields : List IRField) (main : String) :
    collDecls cfg [.mk T fields] main = objDecls cfg [T] main fields := by
  unfold collDecls; rw [aPoss_eq]; rfl

theorem collDecls_many (cfg : TsConfig) (c d : Complex) (rest : List Complex) (main : String) :
    collDecls cfg (c :: d :: rest) main =
      if (c :: d :: rest).length = (mergedAlts (c :: d :: rest)).length then
        objDecls cfg (sortStr (mergedAlts (c :: d :: rest))) main c.fields
      else
        ((c :: d :: rest).filter (fun p => decide (p.name ∉ mergedAlts (c :: d :: rest)))).flatMap
          (fun p => objDecls cfg [p.name] (main ++ "_" ++ p.name) p.fields) ++
        (match ((c :: d :: rest).filter (fun p => p.name ∈ mergedAlts (c :: d :: rest))).getLast? with
          | none => [.union main (((c :: d :: rest).filter
              (fun p => decide (p.name ∉ mergedAlts (c :: d :: rest)))).map
                (fun p => main ++ "_" ++ p.name))]
          | some r => objDecls cfg (sortStr (mergedAlts (c :: d :: rest))) (main ++ "_$$other") r.fields ++
            [.union main (((c :: d :: rest).filter
              (fun p => decide (p.name ∉ mergedAlts (c :: d :: rest)))).map
                (fun p => main ++ "_" ++ p.name) ++ [main ++ "_$$other"])]) := by
  unfold collDecls
  rw [aPoss_eq]
  generalize hps : c :: d :: rest = ps
  have hne : ps ≠ [] := by rw [← hps]; simp
  have key : ∀ (as : List APoss) (main : String), 2 ≤ as.length → aColl as main =
      if as.length = (repNames (as.map (fun p => (p.name, p.props)))).length then
        match as.head? with
        | none => []
        | some first => first.decls (sortStr (repNames (as.map (fun p => (p.name, p.props))))) main
      else
      (as.filter (fun p => decide (p.name ∉ repNames (as.map (fun p => (p.name, p.props)))))).flatMap
          (fun p => p.decls [p.name] (main ++ "_" ++ p.name)) ++
      match (as.filter (fun p => p.name ∈ repNames (as.map (fun p => (p.name, p.props))))).getLast? with
      | none => [.union main ((as.filter (fun p => decide (p.name ∉ repNames (as.map (fun p =>
          (p.name, p.props)))))).map (fun p => main ++ "_" ++ p.name))]
      | some rep =>
        rep.decls (sortStr (repNames (as.map (fun p => (p.name, p.props))))) (main ++ "_$$other") ++
          [.union main ((as.filter (fun p => decide (p.name ∉ repNames (as.map (fun p =>
          (p.name, p.props)))))).map (fun p => main ++ "_" ++ p.name) ++ [main ++ "_$$other"])] := by
    intro as main h
    match as, h with
    | a :: b :: more, _ =>
      unfold aColl
      simp only
      split
      · rfl
      · split
        · rename_i h; simp only [h]
        · rename_i h; simp only [h, List.append_assoc]
  rw [key _ _ (by rw [← hps]; simp)]
  have hrep : repNames ((ps.map (fun c => (⟨c.name, fieldIds c.fields,
      fun lits path => objDecls cfg lits path c.fields⟩ : APoss))).map (fun p => (p.name, p.props))) =
      mergedAlts ps := by
    unfold mergedAlts; rw [List.map_map]; rfl
  rw [hrep, List.length_map]
  congr 1
  · rw [← hps]; rfl
  · rw [List.filter_map, List.filter_map, List.flatMap_map, List.map_map, List.getLast?_map]
    congr 1
    simp only [Function.comp_def]
    cases (ps.filter (fun p => decide (p.name ∈ mergedAlts ps))).getLast? <;> rfl

/-- Every generated collection agrees with its data. -/
theorem collection_agrees (ω : Hash) (cfg : TsConfig) (ps : List Complex) (main : String) :
    Agrees cfg.useReadonlyTypes (genCollection ω (possOf ω cfg ps) main) (collDecls cfg ps main) :=
  genCollection_agrees ω (possOf_agrees ω cfg ps) main

/-! ### Variables and the whole file -/

/-- The reference for the type of a variable. -/
def varFlat (cfg : TsConfig) (schema : Schema) : VariableType → Flat
  | .id | .string => .builtin "string"
  | .float | .int => .builtin "number"
  | .boolean => .builtin "boolean"
  | .custom name =>
    match (schema.getType name).map SType.definition with
    | some (.scalar _) => scalarFlat cfg (.custom name)
    | _ => .global name

/-- The property for a variable. -/
def tsVar (cfg : TsConfig) (schema : Schema) (v : Variable) : TsVar :=
  ⟨v.propName, match v.modifier with
    | .nullable | .nullableList | .nullableListOfNullable => true
    | _ => false, v.modifier, varFlat cfg schema v.type⟩

/-- The globals the variables refer to. -/
def varGlobals (cfg : TsConfig) (schema : Schema) (vs : List Variable) : List String :=
  vs.flatMap (fun v => match varFlat cfg schema v.type with | .global n => [n] | _ => [])

theorem scalarFlat_not_global (cfg : TsConfig) (s : ScalarType) :
    (match scalarFlat cfg s with | .global n => [n] | _ => []) = ([] : List String) := by
  cases s with
  | custom n => unfold scalarFlat; cases cfg.bottomTypeConfig <;> rfl
  | _ => rfl

theorem customScalar_text (cfg : TsConfig) (name : String) :
    compileCustomScalarName cfg name = (scalarFlat cfg (.custom name)).text := by
  rw [scalarFlat_text]; rfl

theorem variableType_agrees {cfg : TsConfig} {schema : Schema} {v : Variable} {g g' : List String}
    {tn : String} (h : compileVariableTypeName cfg schema v g = .ok (tn, g')) :
    tn = (varFlat cfg schema v.type).text ∧ Adds g g' (varGlobals cfg schema [v]) := by
  unfold compileVariableTypeName at h
  unfold varGlobals
  simp only [List.flatMap_cons, List.flatMap_nil, List.append_nil]
  cases ht : v.type with
  | custom name =>
    rw [ht] at h
    simp only at h
    unfold varFlat
    cases hg : schema.getType name with
    | none => rw [hg] at h; simp at h
    | some t =>
      rw [hg] at h
      simp only at h ⊢
      rw [hg]
      simp only [Option.map_some]
      cases hd : t.definition with
      | scalar n =>
        rw [hd] at h
        simp only at h ⊢
        injection h with h
        injection h with h1 h2
        subst h1; subst h2
        rw [scalarFlat_not_global]
        exact ⟨customScalar_text cfg name, Adds.refl g⟩
      | _ =>
        rw [hd] at h
        simp only at h ⊢
        injection h with h
        injection h with h1 h2
        subst h1; subst h2
        exact ⟨rfl, Adds.one g _⟩
  | _ =>
    rw [ht] at h
    simp only at h
    injection h with h
    injection h with h1 h2
    subst h1; subst h2
    exact ⟨rfl, Adds.refl g⟩

theorem variableTypes_agree (cfg : TsConfig) (schema : Schema) : ∀ (vs : List Variable)
    (g : List String) (out : List (Variable × String)) (g' : List String),
    compileVariableTypes cfg schema vs g = .ok (out, g') →
    out = vs.map (fun v => (v, propTypeDef [] v.modifier (varFlat cfg schema v.type).text)) ∧
    Adds g g' (varGlobals cfg schema vs)
  | [], g, out, g', h => by
    unfold compileVariableTypes at h
    injection h with h
    injection h with h1 h2
    subst h1; subst h2
    exact ⟨rfl, Adds.refl g⟩
  | v :: rest, g, out, g', h => by
    unfold compileVariableTypes at h
    cases h1 : compileVariableTypeName cfg schema v g with
    | error e => simp only [h1] at h; simp at h
    | ok r =>
      obtain ⟨tn, g₁⟩ := r
      simp only [h1] at h
      cases h2 : compileVariableTypes cfg schema rest g₁ with
      | error e => simp only [h2] at h; simp at h
      | ok r =>
        obtain ⟨vs', g₂⟩ := r
        simp only [h2] at h
        injection h with h
        injection h with e1 e2
        subst e1; subst e2
        obtain ⟨k1, k2⟩ := variableType_agrees h1
        obtain ⟨k3, k4⟩ := variableTypes_agree cfg schema rest _ _ _ h2
        refine ⟨?_, ?_⟩
        · rw [k1, k3]; rfl
        · have := k2.trans k4
          unfold varGlobals at this ⊢
          simpa using this

theorem variablePropText_eq (cfg : TsConfig) (schema : Schema) (v : Variable) :
    variablePropText v (propTypeDef [] v.modifier (varFlat cfg schema v.type).text) =
      (tsVar cfg schema v).text := by
  unfold variablePropText tsVar TsVar.text
  cases v.modifier <;> simp

/-- The variables in the order of the generated type. -/
def sortedVars (ω : Hash) (cfg : TsConfig) (schema : Schema) (vs : List Variable) : List Variable :=
  (sortBy (fun (e : Variable × String) => e.1.propName) (ω.perm ["typescript.rs:511"]
    (vs.map (fun v => (v, propTypeDef [] v.modifier (varFlat cfg schema v.type).text))))).map Prod.fst

theorem sortedVars_perm (ω : Hash) (cfg : TsConfig) (schema : Schema) (vs : List Variable) :
    (sortedVars ω cfg schema vs).Perm vs := by
  unfold sortedVars
  have h := ((sortBy_perm (fun (e : Variable × String) => e.1.propName) (ω.perm ["typescript.rs:511"]
    (vs.map (fun v => (v, propTypeDef [] v.modifier (varFlat cfg schema v.type).text))))).trans
      (ω.isPerm _ _)).map Prod.fst
  rw [List.map_map] at h
  simpa [Function.comp_def] using h

/-- The generated file as data. -/
def tsFile (ω : Hash) (cfg : TsConfig) (schema : Schema) (op : Operation) : TsFile where
  docNode := docNodeName op.kind
  docModule := cfg.typedGraphqlDocumentnodeModuleName
  globals := sortStr ((enumsIn (collDecls cfg op.collection op.name) ++
    varGlobals cfg schema (op.variables.getD [])).foldl setInsert [])
  globalsModule := cfg.globalTypesModuleName
  name := op.name
  decls := collDecls cfg op.collection op.name
  vars := op.variables.map (fun vs => (op.name ++ "Variables",
    (sortedVars ω cfg schema vs).map (tsVar cfg schema)))
  args := match op.kind with
    | .fragment => [op.name]
    | _ => [op.name, match op.variables with | none => "never" | some _ => op.name ++ "Variables"]

theorem adds_perm {g' new : List String} (h : Adds [] g' new) :
    g'.Perm (new.foldl setInsert []) := by
  refine (List.perm_ext_iff_of_nodup (h.2 (by simp)) (nodup_foldl_setInsert _ _ (by simp))).2 ?_
  intro x
  rw [h.1, mem_foldl_setInsert]

theorem variables_agree {ω : Hash} {cfg : TsConfig} {schema : Schema} {op : Operation}
    {g g' : List String} {r : Option (String × String)}
    (h : compileVariablesTypeDefinition ω cfg schema op g = .ok (r, g')) :
    r = op.variables.map (fun vs => (op.name ++ "Variables",
      "\n\nexport type " ++ (op.name ++ "Variables") ++ " = {\n" ++
        joinWith "\n" ((sortedVars ω cfg schema vs).map (fun v => (tsVar cfg schema v).text)) ++ "\n};")) ∧
    Adds g g' (varGlobals cfg schema (op.variables.getD [])) := by
  unfold compileVariablesTypeDefinition at h
  cases hv : op.variables with
  | none =>
    rw [hv] at h
    simp only at h
    injection h with h
    injection h with h1 h2
    subst h1; subst h2
    exact ⟨rfl, Adds.refl g⟩
  | some vs =>
    rw [hv] at h
    simp only at h
    cases h1 : compileVariableTypes cfg schema vs g with
    | error e => rw [h1] at h; simp at h
    | ok r₁ =>
      obtain ⟨out, g₁⟩ := r₁
      rw [h1] at h
      simp only at h
      injection h with h
      injection h with e1 e2
      subst e1; subst e2
      obtain ⟨k1, k2⟩ := variableTypes_agree cfg schema vs _ _ _ h1
      refine ⟨?_, k2⟩
      simp only [Option.map_some]
      congr 5
      unfold sortedVars
      rw [k1, List.map_map]
      apply List.map_congr_left
      intro e he
      have he' : e ∈ vs.map (fun v => (v, propTypeDef [] v.modifier (varFlat cfg schema v.type).text)) :=
        (((sortBy_perm _ _).trans (ω.isPerm _ _)).mem_iff).1 he
      obtain ⟨v, _, rfl⟩ := List.mem_map.1 he'
      exact variablePropText_eq cfg schema v

/-- The text of a generated file is the text of the data, and the globals reported are those imported. -/
theorem compileIr_agrees {ω : Hash} {op : Operation} {cfg : TsConfig} {schema : Schema} {c : Compile}
    (h : compileIr ω op cfg schema = .ok c) :
    c.contents = (tsFile ω cfg schema op).text cfg.useReadonlyTypes ∧
    c.globalTypesUsed.Perm (tsFile ω cfg schema op).globals ∧
    Closed (tsFile ω cfg schema op).decls ∧ op.name ∈ (tsFile ω cfg schema op).decls.map TsDecl.name := by
  unfold compileIr at h
  cases h1 : genCollection ω (possOf ω cfg op.collection) op.name [] with
  | error e => rw [h1] at h; simp at h
  | ok r =>
    obtain ⟨defs, g⟩ := r
    rw [h1] at h
    simp only at h
    cases h2 : compileVariablesTypeDefinition ω cfg schema op g with
    | error e => rw [h2] at h; simp at h
    | ok r =>
      obtain ⟨vd, g'⟩ := r
      rw [h2] at h
      simp only at h
      injection h with h
      subst h
      obtain ⟨e1, e2, e3⟩ := collection_agrees ω cfg op.collection op.name [] defs g h1
      obtain ⟨k1, k2⟩ := variables_agree h2
      have hadd := adds_perm (e2.trans k2)
      have hsort : sortStr (ω.perm ["typescript.rs:547"] g') = (tsFile ω cfg schema op).globals :=
        sortStr_eq_of_perm ((ω.isPerm _ _).trans hadd)
      refine ⟨?_, ?_, e3, genCollection_declares ω (possOf_agrees ω cfg op.collection) h1⟩
      · simp only
        unfold TsFile.text compileImports
        have hempty : g'.isEmpty = decide ((tsFile ω cfg schema op).globals = []) := by
          rw [Bool.eq_iff_iff, List.isEmpty_iff, decide_eq_true_iff]
          constructor
          · rintro rfl
            have := hadd.length_eq
            show sortStr _ = []
            rw [List.length_eq_zero_iff.1 this.symm]; rfl
          · intro hn
            by_contra hne
            have hh : (enumsIn (collDecls cfg op.collection op.name) ++
              varGlobals cfg schema (op.variables.getD [])).foldl setInsert [] ≠ [] := by
              intro e
              rw [e] at hadd
              exact hne (List.perm_nil.1 hadd)
            exact sortStr_ne_nil hh hn
        rw [hempty, hsort, e1, k1]
        have hv : ∀ (o : Option (List Variable)),
            ((o.map (fun vs => (op.name ++ "Variables", "\n\nexport type " ++ (op.name ++ "Variables") ++
              " = {\n" ++ joinWith "\n" ((sortedVars ω cfg schema vs).map
                (fun v => (tsVar cfg schema v).text)) ++ "\n};"))).map Prod.snd).getD "" =
            (match o.map (fun vs => (op.name ++ "Variables",
                (sortedVars ω cfg schema vs).map (tsVar cfg schema))) with
              | none => ""
              | some (n, vs) =>
                "\n\nexport type " ++ n ++ " = {\n" ++ joinWith "\n" (vs.map TsVar.text) ++ "\n};") := by
          intro o
          cases o with
          | none => rfl
          | some vs => simp [Function.comp_def]
        rw [hv]
        have hann : (match op.kind with
            | .fragment => docNodeName op.kind ++ "<" ++ op.name ++ ">"
            | _ => docNodeName op.kind ++ "<" ++ op.name ++ ", " ++
              ((op.variables.map (fun vs => (op.name ++ "Variables", "\n\nexport type " ++
              (op.name ++ "Variables") ++ " = {\n" ++ joinWith "\n" ((sortedVars ω cfg schema vs).map
                (fun v => (tsVar cfg schema v).text)) ++ "\n};"))).map Prod.fst).getD "never" ++ ">") =
            docNodeName op.kind ++ "<" ++ joinWith ", " (tsFile ω cfg schema op).args ++ ">" := by
          unfold tsFile
          cases hk : op.kind <;> cases hv : op.variables <;>
            simp [joinWith, String.append_assoc]
        have key : ∀ (a b c d : String), a = b → c ++ a ++ d = c ++ b ++ d := by rintro a _ c d rfl; rfl
        refine (key _ _ _ _ hann).trans ?_
        have himp : (if decide ((tsFile ω cfg schema op).globals = []) = true then
            "import type { " ++ docNodeName op.kind ++ " } from \"" ++
              cfg.typedGraphqlDocumentnodeModuleName ++ "\";\n\n"
          else
            "import type { " ++ docNodeName op.kind ++ " } from \"" ++
              cfg.typedGraphqlDocumentnodeModuleName ++ "\";\nimport type { " ++
              joinWith ", " (tsFile ω cfg schema op).globals ++ " } from \"" ++
              cfg.globalTypesModuleName ++ "\";\n\n") =
          "import type { " ++ docNodeName op.kind ++ " } from \"" ++
            cfg.typedGraphqlDocumentnodeModuleName ++ "\";\n" ++
          (if (tsFile ω cfg schema op).globals = [] then "" else
            "import type { " ++ joinWith ", " (tsFile ω cfg schema op).globals ++ " } from \"" ++
              cfg.globalTypesModuleName ++ "\";\n") ++ "\n" := by
          have e1 : "\";\n\n" = "\";\n" ++ "\n" := rfl
          have e2 : "\";\nimport type { " = "\";\n" ++ "import type { " := rfl
          by_cases hn : (tsFile ω cfg schema op).globals = []
          · rw [if_pos (by simpa using hn), if_pos hn, e1]
            simp only [String.append_assoc, String.empty_append]
          · rw [if_neg (by simpa using hn), if_neg hn, e1, e2]
            simp only [String.append_assoc]
        rw [himp]
        show _ = _
        unfold header
        simp only [String.append_assoc]
        rfl
      · exact hadd.trans (sortStr_perm _).symm

end Qlc
