import Verif.Spec.Restyle
import Verif.Lemmas.Emit
import Verif.Props.Emit
/-
Generation under settings that differ in how things are written.
-/
set_option autoImplicit false

namespace Qlc
open Spec

/-! ### The same errors and the same globals -/

/-- Both fail with the same error, or both succeed with the same globals. -/
def GenSame {α β : Type} : Except TsError (α × List String) → Except TsError (β × List String) → Prop
  | .error e, .error e' => e = e'
  | .ok x, .ok y => x.2 = y.2
  | _, _ => False

theorem GenSame.elim {α β : Type} {x : Except TsError (α × List String)} {y : Except TsError (β × List String)}
    (h : GenSame x y) : (∃ e, x = .error e ∧ y = .error e) ∨ ∃ a b g, x = .ok (a, g) ∧ y = .ok (b, g) := by
  rcases x with e | ⟨a, g⟩ <;> rcases y with e' | ⟨b, g'⟩
  · exact .inl ⟨e, rfl, by rw [show e = e' from h]⟩
  · exact False.elim h
  · exact False.elim h
  · exact .inr ⟨a, b, g, rfl, by rw [show g = g' from h]⟩

/-- Two possibilities that are generated in the same way. -/
def PossSame (p q : Poss) : Prop :=
  q.name = p.name ∧ q.props = p.props ∧ ∀ d path g, GenSame (p.gen d path g) (q.gen d path g)

theorem genDistinct_styles (main : String) (rep : List String) {ps qs : List Poss} (h : List.Forall₂ PossSame ps qs) :
    ∀ (a b a' b' g : List String), GenSame (genDistinct main rep ps a b g) (genDistinct main rep qs a' b' g) := by
  induction h with
  | nil => intro a b a' b' g; unfold genDistinct; exact rfl
  | cons h _ ih =>
    intro a b a' b' g
    unfold genDistinct
    rw [h.1]
    split
    · exact ih _ _ _ _ _
    · simp only
      rcases (h.2.2 _ _ _).elim with ⟨e, e1, e2⟩ | ⟨x, y, g', e1, e2⟩
      · rw [e1, e2]; exact rfl
      · rw [e1, e2]; exact ih _ _ _ _ _

theorem forall₂_maps {α β : Type} {R : α → α → Prop} (f : α → β) (hf : ∀ a b, R a b → f b = f a) {l l' : List α}
    (h : List.Forall₂ R l l') : l'.map f = l.map f := by
  induction h with
  | nil => rfl
  | cons h _ ih => simp only [List.map_cons, hf _ _ h, ih]

theorem forall₂_filters {α : Type} {R : α → α → Prop} (P : α → Bool) (hf : ∀ a b, R a b → P b = P a) {l l' : List α}
    (h : List.Forall₂ R l l') : List.Forall₂ R (l.filter P) (l'.filter P) := by
  induction h with
  | nil => exact .nil
  | cons h _ ih =>
    simp only [List.filter_cons, hf _ _ h]
    split
    · exact .cons h ih
    · exact ih

theorem forall₂_lasts {α : Type} {R : α → α → Prop} {l l' : List α} (h : List.Forall₂ R l l') :
    (l.getLast? = none ∧ l'.getLast? = none) ∨ ∃ a b, l.getLast? = some a ∧ l'.getLast? = some b ∧ R a b := by
  induction h with
  | nil => exact .inl ⟨rfl, rfl⟩
  | @cons a b l l' h t ih =>
    rcases ih with ⟨h1, h2⟩ | ⟨x, y, h1, h2, h3⟩
    · rw [List.getLast?_eq_none_iff] at h1 h2
      subst h1; subst h2
      exact .inr ⟨a, b, rfl, rfl, h⟩
    · refine .inr ⟨x, y, ?_, ?_, h3⟩
      · rw [List.getLast?_cons, h1]; rfl
      · rw [List.getLast?_cons, h2]; rfl

theorem genCollection_styles (ω : Hash) {ps qs : List Poss} (h : List.Forall₂ PossSame ps qs) (main : String)
    (g : List String) : GenSame (genCollection ω ps main g) (genCollection ω qs main g) := by
  cases h with
  | nil => exact rfl
  | @cons p q ps qs h1 t =>
    cases t with
    | nil =>
      show GenSame (p.gen p.name main g) (q.gen q.name main g)
      rw [h1.1]; exact h1.2.2 _ _ _
    | @cons p' q' ps qs h2 t =>
      have hall : List.Forall₂ PossSame (p :: p' :: ps) (q :: q' :: qs) := .cons h1 (.cons h2 t)
      unfold genCollection
      simp only
      have hp := forall₂_maps Poss.props (fun a b h => h.2.1) hall
      have hr := forall₂_maps Poss.name (fun a b h => h.1) (forall₂_filters
        (fun x : Poss => sameSet (commonProps ((p :: p' :: ps).map Poss.props)) x.props)
        (fun a b h => by simp only [h.2.1]) hall)
      rw [hp, hr, ← hall.length_eq]
      generalize (((p :: p' :: ps).filter
        (fun x : Poss => sameSet (commonProps ((p :: p' :: ps).map Poss.props)) x.props)).map Poss.name).foldl
          setInsert [] = rep
      split
      · exact h1.2.2 _ _ _
      · rcases (genDistinct_styles main rep hall [] [] [] [] g).elim with ⟨e, e1, e2⟩ | ⟨x, y, g', e1, e2⟩
        · rw [e1, e2]; exact rfl
        · rw [e1, e2]
          simp only
          rcases forall₂_lasts (forall₂_filters (fun x : Poss => decide (x.name ∈ rep))
            (fun a b h => by simp only [h.1]) hall) with ⟨l1, l2⟩ | ⟨a, b, l1, l2, l3⟩
          · rw [l1, l2]; exact rfl
          · rw [l1, l2]
            simp only
            unfold genSmoosh
            rcases (l3.2.2 (joinWith "\" | \"" (sortStr (ω.perm ["typescript.rs:375,404", main] rep)))
              (main ++ "_$$other") g').elim with ⟨e, e1, e2⟩ | ⟨x', y', g'', e1, e2⟩
            · rw [e1, e2]; exact rfl
            · rw [e1, e2]; exact rfl

mutual
theorem genFields_styles (ω : Hash) (cfg cfg' : TsConfig) : ∀ (fs : List IRField) (disp path : String)
    (g : List String), GenSame (genFields ω cfg disp path fs g) (genFields ω cfg' disp path fs g)
  | [], _, _, _ => by unfold genFields; exact rfl
  | .mk prop doc dep last mods ty :: rest, disp, path, g => by
    unfold genFields
    rcases (genFieldType_styles ω cfg cfg' ty disp (path ++ "_" ++ prop) g).elim with
      ⟨e, e1, e2⟩ | ⟨x, y, g', e1, e2⟩
    · simp only [e1, e2]; exact rfl
    · simp only [e1, e2]
      rcases (genFields_styles ω cfg cfg' rest disp path g').elim with ⟨e, e1, e2⟩ | ⟨x', y', g'', e1, e2⟩
      · simp only [e1, e2]; exact rfl
      · simp only [e1, e2]; exact rfl
theorem genFieldType_styles (ω : Hash) (cfg cfg' : TsConfig) : ∀ (ty : IRType) (disp path : String)
    (g : List String), GenSame (genFieldType ω cfg disp path ty g) (genFieldType ω cfg' disp path ty g)
  | .complex ps, disp, path, g => by
    unfold genFieldType
    rcases (genCollection_styles ω (possOf_styles ω cfg cfg' ps) path g).elim with ⟨e, e1, e2⟩ | ⟨x, y, g', e1, e2⟩
    · simp only [e1, e2]; exact rfl
    · simp only [e1, e2]; exact rfl
  | .enum n, _, _, _ => by unfold genFieldType; exact rfl
  | .scalar s, _, _, _ => by unfold genFieldType; exact rfl
  | .typeName, _, _, _ => by unfold genFieldType; exact rfl
theorem possOf_styles (ω : Hash) (cfg cfg' : TsConfig) : ∀ (ps : List Complex),
    List.Forall₂ PossSame (possOf ω cfg ps) (possOf ω cfg' ps)
  | [] => by unfold possOf; exact .nil
  | .mk name fields :: rest => by
    unfold possOf
    refine .cons ⟨rfl, rfl, fun d path g => ?_⟩ (possOf_styles ω cfg cfg' rest)
    simp only
    rcases (genFields_styles ω cfg cfg' fields d path g).elim with ⟨e, e1, e2⟩ | ⟨x, y, g', e1, e2⟩
    · simp only [e1, e2]; exact rfl
    · simp only [e1, e2]; exact rfl
end

theorem variableTypes_styles (cfg cfg' : TsConfig) (schema : Schema) : ∀ (vs : List Variable) (g : List String),
    GenSame (compileVariableTypes cfg schema vs g) (compileVariableTypes cfg' schema vs g)
  | [], g => by unfold compileVariableTypes; exact rfl
  | v :: rest, g => by
    have h1 : GenSame (compileVariableTypeName cfg schema v g) (compileVariableTypeName cfg' schema v g) := by
      unfold compileVariableTypeName
      cases v.type with
      | custom n =>
        simp only
        cases schema.getType n with
        | none => exact rfl
        | some t => simp only; cases t.definition <;> exact rfl
      | _ => exact rfl
    unfold compileVariableTypes
    rcases h1.elim with ⟨e, e1, e2⟩ | ⟨x, y, g', e1, e2⟩
    · simp only [e1, e2]; exact rfl
    · simp only [e1, e2]
      rcases (variableTypes_styles cfg cfg' schema rest g').elim with ⟨e, e1, e2⟩ | ⟨x', y', g'', e1, e2⟩
      · simp only [e1, e2]; exact rfl
      · simp only [e1, e2]; exact rfl

/-- Generation fails with the same error, or succeeds with the same globals. -/
theorem compileIr_styles (ω : Hash) (op : Operation) (cfg cfg' : TsConfig) (schema : Schema) :
    (∃ e, compileIr ω op cfg schema = .error e ∧ compileIr ω op cfg' schema = .error e) ∨
    ∃ c c', compileIr ω op cfg schema = .ok c ∧ compileIr ω op cfg' schema = .ok c' ∧
      c'.globalTypesUsed = c.globalTypesUsed := by
  unfold compileIr
  rcases (genCollection_styles ω (possOf_styles ω cfg cfg' op.collection) op.name []).elim with
    ⟨e, e1, e2⟩ | ⟨x, y, g, e1, e2⟩
  · simp only [e1, e2]; exact .inl ⟨e, rfl, rfl⟩
  · simp only [e1, e2]
    have hv : GenSame (compileVariablesTypeDefinition ω cfg schema op g)
        (compileVariablesTypeDefinition ω cfg' schema op g) := by
      unfold compileVariablesTypeDefinition
      cases op.variables with
      | none => exact rfl
      | some vs =>
        simp only
        rcases (variableTypes_styles cfg cfg' schema vs g).elim with ⟨e, e1, e2⟩ | ⟨x', y', g'', e1, e2⟩
        · simp only [e1, e2]; exact rfl
        · simp only [e1, e2]; exact rfl
    rcases hv.elim with ⟨e, e1, e2⟩ | ⟨x', y', g'', e1, e2⟩
    · simp only [e1, e2]; exact .inl ⟨e, rfl, rfl⟩
    · simp only [e1, e2]; exact .inr ⟨_, _, rfl, rfl, rfl⟩

/-! ### The same file -/

/-- Settings under which custom scalars stand under their own names. -/
def ownNames : TsConfig := ⟨false, .realName, "", ""⟩

theorem scalarFlat_spelled (cfg : TsConfig) (s : ScalarType) :
    scalarFlat cfg s = (scalarFlat ownNames s).spelled cfg := by
  cases s <;> rfl

/-- The case of two or more alternatives of `aColl`. -/
def aMany (first : APoss) (all : List APoss) (main : String) : List TsDecl :=
  let repeated := repNames (all.map (fun p => (p.name, p.props)))
  if all.length = repeated.length then first.decls (sortStr repeated) main
  else
    let distinct := all.filter (fun p => decide (p.name ∉ repeated))
    let ds := distinct.flatMap (fun p => p.decls [p.name] (main ++ "_" ++ p.name))
    let names := distinct.map (fun p => main ++ "_" ++ p.name)
    match (all.filter (fun p => p.name ∈ repeated)).getLast? with
    | none => ds ++ [.union main names]
    | some rep =>
      ds ++ rep.decls (sortStr repeated) (main ++ "_$$other") ++
        [.union main (names ++ [main ++ "_$$other"])]

theorem aMany_map (φ : TsDecl → TsDecl) (hφ : ∀ n as, φ (.union n as) = .union n as) (first : APoss)
    (all : List APoss) (main : String) :
    aMany ⟨first.name, first.props, fun l m => (first.decls l m).map φ⟩
      (all.map (fun p => ⟨p.name, p.props, fun l m => (p.decls l m).map φ⟩)) main =
      (aMany first all main).map φ := by
  unfold aMany
  simp only [List.map_map, List.length_map, List.filter_map, List.flatMap_map, List.getLast?_map]
  have e0 : ((fun p : APoss => (p.name, p.props)) ∘ fun p : APoss =>
      (⟨p.name, p.props, fun l m => (p.decls l m).map φ⟩ : APoss)) = fun p => (p.name, p.props) := rfl
  rw [e0]
  generalize repNames (all.map (fun p : APoss => (p.name, p.props))) = rep
  have e1 : ((fun x : APoss => decide (x.name ∉ rep)) ∘ fun p : APoss =>
      (⟨p.name, p.props, fun l m => (p.decls l m).map φ⟩ : APoss)) = fun x => decide (x.name ∉ rep) := rfl
  have e2 : ((fun x : APoss => decide (x.name ∈ rep)) ∘ fun p : APoss =>
      (⟨p.name, p.props, fun l m => (p.decls l m).map φ⟩ : APoss)) = fun x => decide (x.name ∈ rep) := rfl
  rw [e1, e2]
  split
  · rfl
  · cases (all.filter (fun x : APoss => decide (x.name ∈ rep))).getLast? with
    | none =>
      simp only [Option.map_none, List.map_append, List.map_flatMap, List.map_cons, List.map_nil, hφ]
      rfl
    | some r =>
      simp only [Option.map_some, List.map_append, List.map_flatMap, List.map_cons, List.map_nil, hφ]
      rfl

/-- Naturality of the way alternatives are combined. -/
theorem aColl_map (φ : TsDecl → TsDecl) (hφ : ∀ n as, φ (.union n as) = .union n as) (ps : List APoss)
    (main : String) :
    aColl (ps.map (fun p => ⟨p.name, p.props, fun l m => (p.decls l m).map φ⟩)) main = (aColl ps main).map φ := by
  match ps with
  | [] => simp [aColl, hφ]
  | [p] => simp [aColl]
  | p :: q :: rest => exact aMany_map φ hφ p (p :: q :: rest) main

mutual
theorem aFields_spelled (cfg : TsConfig) (lits : List String) : ∀ (fs : List IRField) (path : String),
    aFields cfg lits path fs = ((aFields ownNames lits path fs).1.map (TsDecl.spelled cfg),
      (aFields ownNames lits path fs).2.map (fun p => { p with flat := p.flat.spelled cfg }))
  | [], _ => by unfold aFields; rfl
  | .mk prop doc dep last mods ty :: rest, path => by
    unfold aFields
    rw [aType_spelled cfg lits ty, aFields_spelled cfg lits rest]
    simp
theorem aType_spelled (cfg : TsConfig) (lits : List String) : ∀ (ty : IRType) (path : String),
    aType cfg lits path ty =
      ((aType ownNames lits path ty).1.map (TsDecl.spelled cfg), (aType ownNames lits path ty).2.spelled cfg)
  | .complex ps, path => by
    unfold aType
    rw [aPoss_spelled cfg ps, aColl_map _ (fun _ _ => rfl)]
    rfl
  | .enum n, _ => by unfold aType; rfl
  | .scalar s, _ => by unfold aType; rw [scalarFlat_spelled]; rfl
  | .typeName, _ => by unfold aType; rfl
theorem aPoss_spelled (cfg : TsConfig) : ∀ (ps : List Complex),
    aPoss cfg ps = (aPoss ownNames ps).map
      (fun p => ⟨p.name, p.props, fun l m => (p.decls l m).map (TsDecl.spelled cfg)⟩)
  | [] => by unfold aPoss; rfl
  | .mk name fields :: rest => by
    unfold aPoss
    rw [aPoss_spelled cfg rest]
    simp only [List.map_cons, List.cons.injEq, APoss.mk.injEq, true_and, and_true]
    funext lits path
    rw [aFields_spelled cfg lits fields path]
    simp [TsDecl.spelled]
end

theorem varFlat_spelled (cfg : TsConfig) (schema : Schema) (t : VariableType) :
    varFlat cfg schema t = (varFlat ownNames schema t).spelled cfg := by
  unfold varFlat
  cases t with
  | custom n =>
    simp only
    cases (schema.getType n).map SType.definition with
    | none => rfl
    | some d => cases d <;> rfl
  | _ => rfl

theorem enumsIn_spelled (cfg : TsConfig) (ds : List TsDecl) : enumsIn (ds.map (TsDecl.spelled cfg)) = enumsIn ds := by
  unfold enumsIn
  rw [List.flatMap_map]
  refine List.flatMap_congr fun d _ => ?_
  cases d with
  | union n as => rfl
  | object n props =>
    simp only [TsDecl.spelled]
    rw [List.flatMap_map]
    refine List.flatMap_congr fun p _ => ?_
    cases h : p.flat with
    | custom n => exact scalarFlat_not_global cfg (.custom n)
    | _ => rfl

theorem varGlobals_spelled (cfg : TsConfig) (schema : Schema) (vs : List Variable) :
    varGlobals cfg schema vs = varGlobals ownNames schema vs := by
  unfold varGlobals
  refine List.flatMap_congr fun v _ => ?_
  rw [varFlat_spelled]
  cases h : varFlat ownNames schema v.type with
  | custom n => exact scalarFlat_not_global cfg (.custom n)
  | _ => rfl

/-- The file with custom scalars under their own names, and variables in the order that the settings give. -/
def plainFile (ω : Hash) (cfg : TsConfig) (schema : Schema) (op : Operation) : TsFile :=
  { tsFile ω ownNames schema op with
    vars := op.variables.map (fun vs => (op.name ++ "Variables",
      (sortedVars ω cfg schema vs).map (tsVar ownNames schema))) }

theorem tsFile_printed (ω : Hash) (cfg : TsConfig) (schema : Schema) (op : Operation) :
    (tsFile ω cfg schema op).text cfg.useReadonlyTypes = (plainFile ω cfg schema op).printed cfg := by
  unfold TsFile.printed
  congr 1
  have hd : collDecls cfg op.collection op.name =
      (collDecls ownNames op.collection op.name).map (TsDecl.spelled cfg) := by
    unfold collDecls
    rw [aPoss_spelled, aColl_map _ (fun _ _ => rfl)]
  have hv : ∀ v, tsVar cfg schema v =
      { tsVar ownNames schema v with flat := (tsVar ownNames schema v).flat.spelled cfg } := by
    intro v
    unfold tsVar
    rw [varFlat_spelled cfg]
  unfold plainFile tsFile
  simp only [hd, enumsIn_spelled, varGlobals_spelled cfg, TsFile.mk.injEq, true_and, and_true]
  cases op.variables with
  | none => rfl
  | some vs =>
    simp only [Option.map_some, Option.some.injEq, Prod.mk.injEq, true_and, List.map_map]
    exact List.map_congr_left fun v _ => hv v

theorem plainFile_order (ω : Hash) (cfg cfg' : TsConfig) (schema : Schema) (op : Operation) :
    SameButVariableOrder (plainFile ω cfg schema op) (plainFile ω cfg' schema op) := by
  refine ⟨rfl, ?_⟩
  unfold plainFile
  simp only
  cases op.variables with
  | none => exact trivial
  | some vs =>
    exact ⟨rfl, ((sortedVars_perm ω cfg schema vs).trans (sortedVars_perm ω cfg' schema vs).symm).map _⟩

/-- If custom scalars are written in the same way, the order is the same. -/
theorem plainFile_same (ω : Hash) {cfg cfg' : TsConfig} (schema : Schema) (op : Operation)
    (h : cfg'.bottomTypeConfig = cfg.bottomTypeConfig) : plainFile ω cfg' schema op = plainFile ω cfg schema op := by
  have hs : ∀ s, scalarFlat cfg' s = scalarFlat cfg s := by
    intro s; cases s <;> simp only [scalarFlat, h]
  have hv : ∀ t, varFlat cfg' schema t = varFlat cfg schema t := by
    intro t; unfold varFlat; simp only [hs]
  unfold plainFile sortedVars
  simp only [hv]

theorem plainFile_sorted (ω : Hash) (cfg : TsConfig) (schema : Schema) (op : Operation) {v : String × List TsVar}
    (h : (plainFile ω cfg schema op).vars = some v) : (v.2.map TsVar.name).Pairwise (· ≤ ·) := by
  unfold plainFile at h
  simp only at h
  cases ho : op.variables with
  | none => rw [ho] at h; cases h
  | some vs =>
    rw [ho] at h
    injection h with h
    subst h
    simp only [List.map_map]
    exact sortedVars_sorted ω cfg vs

/-- If no variable is declared twice, the order is the same. -/
theorem plainFile_once (ω : Hash) (cfg cfg' : TsConfig) (schema : Schema) (op : Operation)
    (h : VariablesOnce (plainFile ω cfg schema op)) : plainFile ω cfg' schema op = plainFile ω cfg schema op := by
  obtain ⟨hr, hv⟩ := plainFile_order ω cfg cfg' schema op
  have hs := fun v => plainFile_sorted ω cfg schema op (v := v)
  have hs' := fun v => plainFile_sorted ω cfg' schema op (v := v)
  unfold VariablesOnce at h
  rw [hr]
  generalize (plainFile ω cfg' schema op).vars = x at hv hs'
  generalize plainFile ω cfg schema op = f at *
  obtain ⟨a, b, c, d, e, g, y⟩ := f
  simp only at *
  rcases y with _ | ⟨n, l⟩ <;> rcases x with _ | ⟨n', l'⟩
  · rfl
  · exact False.elim hv
  · exact False.elim hv
  · obtain ⟨e1, e2⟩ := hv
    simp only at e1 e2
    subst e1
    have := sorted_unique TsVar.name e2 (List.pairwise_map.1 (hs _ rfl)) (List.pairwise_map.1 (hs' _ rfl)) (h _ rfl)
    rw [this]

theorem plainFile_nodup (ω : Hash) (cfg : TsConfig) (schema : Schema) (op : Operation)
    (h : ∀ vars, op.variables = some vars → (vars.map Variable.propName).Nodup) :
    VariablesOnce (plainFile ω cfg schema op) := by
  intro v hv
  unfold plainFile at hv
  simp only at hv
  cases ho : op.variables with
  | none => rw [ho] at hv; cases hv
  | some vs =>
    rw [ho] at hv
    injection hv with hv
    subst hv
    simp only [List.map_map]
    exact (((sortedVars_perm ω cfg schema vs).map Variable.propName).nodup_iff).2 (h vs ho)

/-! ### The globals file -/

/-- `inputFieldDef` as data. -/
def plainField (name : String) (field : SField) : Except TsError GlobalField :=
  match field.type.definition with
  | .scalar s => .ok ⟨name, field.documentation, field.deprecated, field.type.last, scalarFlat ownNames s⟩
  | .enum => .ok ⟨name, field.documentation, field.deprecated, field.type.last, .global field.type.name⟩
  | .inputObject => .ok ⟨name, field.documentation, field.deprecated, field.type.last, .global field.type.name⟩
  | _ => .error (.invalidFieldDef field.type.name name)

/-- `globalDef` as data. -/
def plainGlobal (ω : Hash) (name : String) (t : SType) : Except TsError GlobalDecl :=
  match t.definition with
  | .enum vs => .ok (.enum name t.documentation vs)
  | .inputObject n fields =>
    (seqE ((sortBy Prod.fst (ω.perm ["typescript.rs:100"] fields)).map (fun e => plainField e.1 e.2))).map (.input n)
  | _ => .error (.notGlobalType name)

theorem seqE_map {ε α β : Type} (f : α → β) (l : List (Except ε α)) :
    seqE (l.map (Except.map f)) = (seqE l).map (List.map f) := by
  induction l with
  | nil => rfl
  | cons x l ih =>
    cases x with
    | error e => rfl
    | ok a =>
      simp only [List.map_cons, Except.map, seqE]
      rw [ih]
      cases seqE l <;> rfl

theorem compileScalar_spelled (cfg : TsConfig) (s : ScalarType) :
    compileScalar cfg s = ((scalarFlat ownNames s).spelled cfg).text := by
  cases s <;> try rfl
  show (match cfg.bottomTypeConfig with
    | .defaultBottomType => "any"
    | .realName => _
    | .realNameWithPrefix s => _) = (match cfg.bottomTypeConfig with
    | .defaultBottomType => Flat.builtin "any"
    | .realName => _
    | .realNameWithPrefix s => _ : Flat).text
  cases cfg.bottomTypeConfig <;> rfl

theorem inputFieldDef_spelled (cfg : TsConfig) (name : String) (field : SField) :
    inputFieldDef cfg name field = (plainField name field).map (fun f =>
      "  " ++ compileDocumentation f.documentation f.deprecated 2 ++
        inputFieldText f.name (f.flat.spelled cfg).text f.last) := by
  unfold inputFieldDef plainField fromInputDefFieldDef
  cases field.type.definition <;> first | rfl | skip
  simp only [Except.map, compileScalar_spelled]

theorem globalDef_spelled (ω : Hash) (cfg : TsConfig) (name : String) (t : SType) :
    globalDef ω cfg name t = (plainGlobal ω name t).map (GlobalDecl.printed cfg) := by
  unfold globalDef plainGlobal
  cases t.definition <;> first | rfl | skip
  simp only [inputDefFromType, inputFieldDef_spelled]
  rename_i n fields
  have h := seqE_map (fun f : GlobalField => "  " ++ compileDocumentation f.documentation f.deprecated 2 ++
    inputFieldText f.name (f.flat.spelled cfg).text f.last)
    (List.map (fun e : String × SField => plainField e.1 e.2)
      (sortBy Prod.fst (ω.perm ["typescript.rs:100"] fields)))
  rw [List.map_map] at h
  simp only [Function.comp_def] at h
  rw [h]
  cases seqE (List.map (fun e : String × SField => plainField e.1 e.2)
    (sortBy Prod.fst (ω.perm ["typescript.rs:100"] fields))) <;> rfl

/-- The globals file is out of reach, fails with the same error, or is the same up to the spelling of scalars. -/
theorem compileGlobals_spelled (ω : Hash) (fuel : Nat) (schema : Schema) (used : List String) :
    (∀ cfg, compileGlobals ω fuel cfg schema used = none) ∨
    (∃ e, ∀ cfg, compileGlobals ω fuel cfg schema used = some (.error e)) ∨
    ∃ ds, ∀ cfg, compileGlobals ω fuel cfg schema used = some (.ok (globalsPrinted cfg ds)) := by
  unfold compileGlobals globalTypesFromNames
  cases globalNameLoop ω fuel schema (ω.perm ["typescript.rs:201"] used) [] with
  | none => exact .inl fun _ => rfl
  | some r =>
    cases r with
    | error e => exact .inr (.inl ⟨e, fun _ => rfl⟩)
    | ok m =>
      simp only [globalDef_spelled]
      have h : ∀ cfg, seqE (List.map (fun e : String × SType => (plainGlobal ω e.1 e.2).map (GlobalDecl.printed cfg))
          (sortBy Prod.fst (ω.perm ["typescript.rs:209"] m))) =
          (seqE (List.map (fun e : String × SType => plainGlobal ω e.1 e.2)
            (sortBy Prod.fst (ω.perm ["typescript.rs:209"] m)))).map (List.map (GlobalDecl.printed cfg)) := by
        intro cfg
        rw [← seqE_map, List.map_map]
        rfl
      simp only [h]
      cases seqE (List.map (fun e : String × SType => plainGlobal ω e.1 e.2)
            (sortBy Prod.fst (ω.perm ["typescript.rs:209"] m))) with
      | error e => exact .inr (.inl ⟨e, fun _ => rfl⟩)
      | ok ds => exact .inr (.inr ⟨ds, fun _ => rfl⟩)

end Qlc
