import Verif.Lemmas.GrammarDoc
/-
The values a parsed module admits are those its declarations admit.
-/
set_option autoImplicit false

namespace Qlc
open Spec

theorem tsAdmits_refs {env env' : String → JVal → Prop} : ∀ (t : TsTy) (v : JVal),
    (∀ n ∈ t.refs, ∀ v, env n v → env' n v) → TsAdmits env t v → TsAdmits env' t v
  | .ref n, v, h, hv => h n (by simp [TsTy.refs]) v hv
  | .lit s, v, _, hv => hv
  | .null, v, _, hv => hv
  | .arr t, v, h, hv => by
    obtain ⟨vs, rfl, hx⟩ := hv
    exact ⟨vs, rfl, fun x hxm => tsAdmits_refs t x (fun n hn => h n (by simpa [TsTy.refs] using hn)) (hx x hxm)⟩
  | .union a b, v, h, hv => by
    rcases hv with hv | hv
    · exact .inl (tsAdmits_refs a v (fun n hn => h n (by simp [TsTy.refs, hn])) hv)
    · exact .inr (tsAdmits_refs b v (fun n hn => h n (by simp [TsTy.refs, hn])) hv)

theorem flat_refs (f : Flat) : (∃ ls, f = .literals ls ∧ f.ty.refs = []) ∨ f.ty.refs = [f.text] := by
  cases f with
  | literals ls =>
    left
    refine ⟨ls, rfl, List.eq_nil_iff_forall_not_mem.2 ?_⟩
    intro n hn
    rcases refs_unionFrom _ _ n hn with ⟨_, h, _⟩ | ⟨t, ht, h⟩
    · simp at h
    · obtain ⟨m, _, rfl⟩ := List.mem_map.1 ht
      simp [TsTy.refs] at h
  | _ => right; rfl

theorem parse_typeText {p : TsProp} (h : FlatOk p.last p.rest p.flat) (ro : Bool) :
    parseTs p.typeText = some (p.member ro).type := by
  unfold TsProp.typeText TsProp.member
  cases hf : p.flat with
  | literals ns =>
    rw [hf] at h
    obtain ⟨h1, h2, h3, h4⟩ := h
    rw [h3, h4]
    exact parse_lits h1 (fun n hn c hc => (h2 n hn c hc).1)
  | _ =>
    rw [hf] at h
    exact (propTypeDef_full p.rest p.last (TextPrim.ident (Spec.IsTypeRef.typeName h))).parse

theorem mem_stmts_alias {f : TsFile} {ro : Bool} {n : String} {body : TsBody} :
    TsStmt.typeAlias n body ∈ f.stmts ro ↔ (∃ d ∈ f.decls, d.stmt ro = .typeAlias n body) ∨
      ∃ vs, f.vars = some (n, vs) ∧ body = .object (vs.map TsVar.member) := by
  unfold TsFile.stmts
  simp only [List.mem_append, List.mem_map]
  constructor
  · rintro ((((h | h) | h) | h) | h)
    · simp at h
    · split at h <;> simp at h
    · exact .inl h
    · cases hv : f.vars with
      | none => rw [hv] at h; simp at h
      | some p =>
        obtain ⟨x, vs⟩ := p
        rw [hv] at h
        simp only [List.mem_singleton, TsStmt.typeAlias.injEq] at h
        obtain ⟨rfl, rfl⟩ := h
        exact .inr ⟨vs, rfl, rfl⟩
    · simp at h
  · rintro (h | ⟨vs, hv, rfl⟩)
    · exact .inl (.inl (.inr h))
    · refine .inl (.inr ?_)
      rw [hv]
      simp

theorem mem_stmts_enum {f : TsFile} {ro : Bool} {n : String} {ms : List (String × String)} :
    TsStmt.enum n ms ∉ f.stmts ro := by
  unfold TsFile.stmts
  simp only [List.mem_append, List.mem_map]
  rintro ((((h | h) | ⟨d, _, h⟩) | h) | h)
  · simp at h
  · split at h <;> simp at h
  · cases d <;> simp [TsDecl.stmt] at h
  · cases hv : f.vars with
    | none => rw [hv] at h; simp at h
    | some p => rw [hv] at h; simp at h
  · simp at h

theorem mem_exports {f : TsFile} {ro : Bool} {n : String} :
    n ∈ (f.stmts ro).flatMap TsStmt.exports ↔ n ∈ f.declared := by
  rw [List.mem_flatMap]
  unfold TsFile.declared
  rw [List.mem_append]
  constructor
  · rintro ⟨s, hs, hn⟩
    cases s with
    | typeAlias m body =>
      simp only [TsStmt.exports, List.mem_singleton] at hn
      subst hn
      rcases mem_stmts_alias.1 hs with ⟨d, hd, e⟩ | ⟨vs, hv, _⟩
      · left
        refine List.mem_map.2 ⟨d, hd, ?_⟩
        cases d <;> (simp only [TsDecl.stmt, TsStmt.typeAlias.injEq] at e; exact e.1)
      · right; rw [hv]; simp
    | enum m ms => exact absurd hs mem_stmts_enum
    | _ => simp [TsStmt.exports] at hn
  · rintro (h | h)
    · obtain ⟨d, hd, rfl⟩ := List.mem_map.1 h
      cases d with
      | object m props => exact ⟨_, mem_stmts_alias.2 (.inl ⟨_, hd, rfl⟩), by simp [TsStmt.exports, TsDecl.name]⟩
      | union m alts => exact ⟨_, mem_stmts_alias.2 (.inl ⟨_, hd, rfl⟩), by simp [TsStmt.exports, TsDecl.name]⟩
    · cases hv : f.vars with
      | none => rw [hv] at h; simp at h
      | some p =>
        obtain ⟨x, vs⟩ := p
        rw [hv] at h
        simp only [List.mem_singleton] at h
        subst h
        exact ⟨_, mem_stmts_alias.2 (.inr ⟨vs, hv, rfl⟩), by simp [TsStmt.exports]⟩

/-- The names of a file are kept apart: its declarations can be read, references stay in the file or are not
to the variables type. -/
structure Apart (f : TsFile) : Prop where
  ok : ∀ d ∈ f.decls, DeclOk d
  refs : ∀ d ∈ f.decls, RefsOk (fun fl => fl.text ∉ f.declared) d
  closed : ∀ n props, TsDecl.object n props ∈ f.decls → ∀ p ∈ props, ∀ m, p.flat = .declared m →
    m ∈ f.decls.map TsDecl.name
  vars : ∀ x vs, f.vars = some (x, vs) → x ∉ f.decls.map TsDecl.name

theorem mem_declared {f : TsFile} {n : String} (h : n ∈ f.decls.map TsDecl.name) : n ∈ f.declared := by
  unfold TsFile.declared
  exact List.mem_append_left _ h

/-- A reference of a property: to a type of the file, or to a name from elsewhere. -/
theorem Apart.ref {f : TsFile} (h : Apart f) {n : String} {props : List TsProp}
    (hd : TsDecl.object n props ∈ f.decls) {p : TsProp} (hp : p ∈ props) {ro : Bool} {m : String}
    (hm : m ∈ (p.member ro).type.refs) :
    m ∈ f.decls.map TsDecl.name ∨ m ∉ f.declared := by
  have hm : m ∈ (wrapMods (p.last :: p.rest) p.flat.ty).refs := hm
  rw [refs_wrapMods] at hm
  rcases flat_refs p.flat with ⟨ls, _, e⟩ | e
  · rw [e] at hm; simp at hm
  · rw [e, List.mem_singleton] at hm
    subst hm
    rcases h.refs _ hd n props rfl p hp with ⟨k, hk⟩ | ⟨ls, hl⟩ | hq
    · left
      have := h.closed n props hd p hp k hk
      rw [hk]; exact this
    · rw [hl] at e
      rcases flat_refs p.flat with ⟨_, _, e'⟩ | e'
      · rw [hl, e] at e'; simp at e'
      · exfalso
        rw [hl] at e'
        have h0 : (Flat.literals ls).ty.refs = [] := by
          rcases flat_refs (.literals ls) with ⟨_, _, h0⟩ | h0
          · exact h0
          · refine List.eq_nil_iff_forall_not_mem.2 ?_
            intro n hn
            rcases refs_unionFrom _ _ n hn with ⟨_, h, _⟩ | ⟨t, ht, h⟩
            · simp at h
            · obtain ⟨m, _, rfl⟩ := List.mem_map.1 ht
              simp [TsTy.refs] at h
        rw [h0] at e'; simp at e'
    · exact .inr hq

/-- What the declarations admit, the module admits. -/
theorem inhabits_module {f : TsFile} (h : Apart f) (ro : Bool) (env : String → JVal → Prop) (j : Nat) :
    ∀ k, j ≤ k → ∀ n v, Inhabits f.decls env k n v → ModuleAdmits (f.stmts ro) env j n v := by
  induction j with
  | zero => intro k _ n v _; trivial
  | succ j ih =>
    intro k hk n v hv
    obtain ⟨k, rfl⟩ : ∃ k', k = k' + 1 := ⟨k - 1, by omega⟩
    obtain ⟨objs, hres, o, ho, hobj⟩ := hv
    right
    rcases hres with ⟨props, hd, rfl⟩ | ⟨hu, hall⟩
    · rw [List.mem_singleton] at ho
      subst ho
      refine ⟨.object (props.map (TsProp.member ro)), mem_stmts_alias.2 (.inl ⟨_, hd, rfl⟩), ?_⟩
      obtain ⟨fs, rfl, h1, h2, h3⟩ := hobj
      refine ⟨fs, rfl, h1, ?_, ?_⟩
      · intro key hkey
        have := (h2 key).1 hkey
        rw [List.map_map]
        exact this
      · intro m hm
        obtain ⟨p, hp, rfl⟩ := List.mem_map.1 hm
        obtain ⟨x, hx, t, ht, hadm⟩ := h3 p hp
        left
        refine ⟨x, hx, ?_⟩
        have hpo := ((h.ok _ hd).2 p hp).2.2
        rw [parse_typeText hpo ro] at ht
        injection ht with ht
        subst ht
        refine tsAdmits_refs _ _ ?_ hadm
        intro m hm y hy
        unfold scope at hy
        rcases h.ref hd hp hm with hin | hout
        · rw [if_pos hin] at hy
          rw [if_pos (mem_exports.2 (mem_declared hin))]
          exact ih k (by omega) m y hy
        · rw [if_neg (fun hin => hout (mem_declared hin))] at hy
          rw [if_neg (fun he => hout (mem_exports.1 he))]
          exact hy
    · refine ⟨.type (unionFrom none ((objs.map Prod.fst).map TsTy.ref)),
        mem_stmts_alias.2 (.inl ⟨_, hu, rfl⟩), ?_⟩
      simp only
      rw [tsAdmits_unionFrom _ _ _ _ (.inr (by
        intro e
        simp only [List.map_eq_nil_iff] at e
        rw [e] at ho; simp at ho))]
      right
      refine ⟨.ref o.1, List.mem_map.2 ⟨o.1, List.mem_map.2 ⟨o, ho, rfl⟩, rfl⟩, ?_⟩
      have hod := hall o ho
      have hin : o.1 ∈ f.decls.map TsDecl.name := List.mem_map.2 ⟨_, hod, rfl⟩
      simp only [TsAdmits]
      rw [if_pos (mem_exports.2 (mem_declared hin))]
      exact ih (k + 1) (by omega) o.1 v ⟨[o], .inl ⟨o.2, hod, rfl⟩, o, by simp, hobj⟩

/-- Deeper checks say more. -/
theorem moduleAdmits_anti {m : List TsStmt} {env : String → JVal → Prop} (k : Nat) : ∀ n v,
    ModuleAdmits m env (k + 1) n v → ModuleAdmits m env k n v := by
  induction k with
  | zero => intro n v _; trivial
  | succ k ih =>
    intro n v hv
    rcases hv with hv | ⟨body, hb, hv⟩
    · exact .inl hv
    · have hsc : ∀ t : TsTy, ∀ x, TsAdmits (fun n' v' =>
          if n' ∈ m.flatMap TsStmt.exports then ModuleAdmits m env (k + 1) n' v' else env n' v') t x →
          TsAdmits (fun n' v' =>
          if n' ∈ m.flatMap TsStmt.exports then ModuleAdmits m env k n' v' else env n' v') t x := by
        intro t x
        refine tsAdmits_refs t x ?_
        intro n' _ y hy
        split
        · rename_i h; rw [if_pos h] at hy; exact ih n' y hy
        · rename_i h; rw [if_neg h] at hy; exact hy
      refine .inr ⟨body, hb, ?_⟩
      cases body with
      | type t => exact hsc t v hv
      | object ms =>
        obtain ⟨fs, rfl, h1, h2, h3⟩ := hv
        refine ⟨fs, rfl, h1, h2, ?_⟩
        intro q hq
        rcases h3 q hq with ⟨x, hx, hx'⟩ | h
        · exact .inl ⟨x, hx, hsc _ _ hx'⟩
        · exact .inr h

theorem all_objects {decls : List TsDecl} : ∀ (alts : List String),
    (∀ a ∈ alts, ∃ props, TsDecl.object a props ∈ decls) →
    ∃ objs : List (String × List TsProp), objs.map Prod.fst = alts ∧ ∀ o ∈ objs, TsDecl.object o.1 o.2 ∈ decls
  | [], _ => ⟨[], rfl, by simp⟩
  | b :: bs, h => by
    obtain ⟨objs, e, ho⟩ := all_objects bs (fun a ha => h a (by simp [ha]))
    obtain ⟨props, hp⟩ := h b (by simp)
    refine ⟨(b, props) :: objs, by simp [e], ?_⟩
    intro o hom
    rcases List.mem_cons.1 hom with rfl | hom
    · exact hp
    · exact ho o hom

/-- The statement for a declared name. -/
theorem Apart.body {f : TsFile} (h : Apart f) (hn : (f.decls.map TsDecl.name).Nodup) {ro : Bool}
    {env : String → JVal → Prop} {d : TsDecl} (hd : d ∈ f.decls) {j : Nat} {v : JVal}
    (hv : ModuleAdmits (f.stmts ro) env (j + 1) d.name v) : ∃ body, d.stmt ro = .typeAlias d.name body ∧
      match body with
      | .object ms => MembersAdmit (fun p x => TsAdmits (fun n' v' =>
        if n' ∈ (f.stmts ro).flatMap TsStmt.exports then ModuleAdmits (f.stmts ro) env j n' v'
        else env n' v') p.type x) ms v
      | .type t => TsAdmits (fun n' v' =>
        if n' ∈ (f.stmts ro).flatMap TsStmt.exports then ModuleAdmits (f.stmts ro) env j n' v'
        else env n' v') t v := by
  have hin : d.name ∈ f.decls.map TsDecl.name := List.mem_map.2 ⟨_, hd, rfl⟩
  rcases hv with ⟨ms, hms, _⟩ | ⟨body, hb, hv⟩
  · exact absurd hms mem_stmts_enum
  · rcases mem_stmts_alias.1 hb with ⟨d', hd', e⟩ | ⟨vs, hvs, _⟩
    · have hname : d'.name = d.name := by
        cases d' <;> (simp only [TsDecl.stmt, TsStmt.typeAlias.injEq] at e; exact e.1)
      have := object_unique hn hd' hd hname
      subst this
      refine ⟨body, e, ?_⟩
      cases body <;> exact hv
    · exact absurd hin (h.vars _ vs hvs)

/-- What the module admits, the declarations admit, when names are declared once and unions are of object
types. -/
theorem module_inhabits {f : TsFile} (h : Apart f) (hn : (f.decls.map TsDecl.name).Nodup)
    (hu : ∀ n alts, TsDecl.union n alts ∈ f.decls → ∀ a ∈ alts, ∃ props, TsDecl.object a props ∈ f.decls)
    (ro : Bool) (env : String → JVal → Prop) (k : Nat) :
    ∀ n ∈ f.decls.map TsDecl.name, ∀ v, ModuleAdmits (f.stmts ro) env (2 * k + 2) n v →
      Inhabits f.decls env k n v := by
  -- an object type, one level down
  have step : ∀ k j n props, TsDecl.object n props ∈ f.decls → ∀ v,
      (∀ n ∈ f.decls.map TsDecl.name, ∀ v, ModuleAdmits (f.stmts ro) env j n v → Inhabits f.decls env k n v) →
      ModuleAdmits (f.stmts ro) env (j + 1) n v →
      IsObject TsProp.name (fun p x => ∃ t, parseTs p.typeText = some t ∧
        TsAdmits (scope f.decls (Inhabits f.decls env k) env) t x) props v := by
    intro k j n props hd v ih hv
    obtain ⟨body, e, hv⟩ := h.body hn hd hv
    simp only [TsDecl.stmt, TsDecl.name, TsStmt.typeAlias.injEq, true_and] at e
    subst e
    obtain ⟨fs, rfl, h1, h2, h3⟩ := hv
    have hval : ∀ p ∈ props, ∃ x, (p.name, x) ∈ fs ∧ TsAdmits (fun n' v' =>
        if n' ∈ (f.stmts ro).flatMap TsStmt.exports then ModuleAdmits (f.stmts ro) env j n' v'
        else env n' v') (p.member ro).type x := by
      intro p hp
      rcases h3 _ (List.mem_map.2 ⟨p, hp, rfl⟩) with h | ⟨h, _⟩
      · exact h
      · simp [TsProp.member] at h
    refine ⟨fs, rfl, h1, ?_, ?_⟩
    · intro key
      constructor
      · intro hk
        have := h2 key hk
        rw [List.map_map] at this
        exact this
      · intro hk
        obtain ⟨p, hp, rfl⟩ := List.mem_map.1 hk
        obtain ⟨x, hx, _⟩ := hval p hp
        exact List.mem_map.2 ⟨_, hx, rfl⟩
    · intro p hp
      obtain ⟨x, hx, hadm⟩ := hval p hp
      refine ⟨x, hx, _, parse_typeText ((h.ok _ hd).2 p hp).2.2 ro, ?_⟩
      refine tsAdmits_refs _ _ ?_ hadm
      intro m hm y hy
      unfold scope
      rcases h.ref hd hp hm with hin | hout
      · rw [if_pos hin]
        rw [if_pos (mem_exports.2 (mem_declared hin))] at hy
        exact ih m hin y hy
      · rw [if_neg (fun hin => hout (mem_declared hin))]
        rw [if_neg (fun he => hout (mem_exports.1 he))] at hy
        exact hy
  -- a name stands for object types
  have find : ∀ n ∈ f.decls.map TsDecl.name, ∀ j v, ModuleAdmits (f.stmts ro) env (j + 2) n v →
      ∃ objs o, Resolves f.decls n objs ∧ o ∈ objs ∧ ModuleAdmits (f.stmts ro) env (j + 1) o.1 v ∧
        TsDecl.object o.1 o.2 ∈ f.decls := by
    intro n hin j v hv
    obtain ⟨d, hd, rfl⟩ := List.mem_map.1 hin
    cases d with
    | object m props => exact ⟨[(m, props)], (m, props), .inl ⟨props, hd, rfl⟩, by simp, moduleAdmits_anti _ _ _ hv, hd⟩
    | union m alts =>
      have hne := (h.ok _ hd).2.1
      obtain ⟨body, e, hv⟩ := h.body hn hd hv
      simp only [TsDecl.stmt, TsDecl.name, TsStmt.typeAlias.injEq, true_and] at e
      subst e
      simp only at hv
      rw [tsAdmits_unionFrom _ _ _ _ (.inr (by simpa using hne))] at hv
      rcases hv with ⟨_, h0, _⟩ | ⟨t, ht, hv⟩
      · simp at h0
      · obtain ⟨a, ha, rfl⟩ := List.mem_map.1 ht
        obtain ⟨objs, hobjs, hobjd⟩ := all_objects alts (hu m alts hd)
        have : a ∈ objs.map Prod.fst := by rw [hobjs]; exact ha
        obtain ⟨o, ho, rfl⟩ := List.mem_map.1 this
        refine ⟨objs, o, .inr ⟨by rw [hobjs]; exact hd, hobjd⟩, ho, ?_, hobjd o ho⟩
        have hoin : o.1 ∈ f.decls.map TsDecl.name := List.mem_map.2 ⟨_, hobjd o ho, rfl⟩
        simp only [TsAdmits] at hv
        rw [if_pos (mem_exports.2 (mem_declared hoin))] at hv
        exact hv
  induction k with
  | zero =>
    intro n hin v hv
    obtain ⟨objs, o, hres, ho, hv, hod⟩ := find n hin 0 v hv
    obtain ⟨body, e, hv⟩ := h.body hn hod hv
    simp only [TsDecl.stmt, TsDecl.name, TsStmt.typeAlias.injEq, true_and] at e
    subst e
    obtain ⟨fs, rfl, _⟩ := hv
    exact ⟨fs, rfl⟩
  | succ k ih =>
    intro n hin v hv
    obtain ⟨objs, o, hres, ho, hv, hod⟩ := find n hin (2 * k + 2) v hv
    exact ⟨objs, hres, o, ho, step k (2 * k + 2) o.1 o.2 hod v ih hv⟩

/-- The alternatives of a union are declared as object types. -/
theorem coll_unions (cfg : TsConfig) (n : Nat) : ∀ (ps : List Complex), sizeOf ps ≤ n → ∀ (main : String),
    ∀ m alts, TsDecl.union m alts ∈ collDecls cfg ps main → ∀ a ∈ alts,
      ∃ props, TsDecl.object a props ∈ collDecls cfg ps main := by
  induction n with
  | zero => intro ps hs; exfalso; cases ps <;> simp at hs
  | succ n ih =>
    intro ps hs main m alts hd a ha
    rcases mem_collDecls.1 hd with ⟨b, hb, hd⟩ | ⟨_, e⟩
    · rcases mem_objDecls.1 hd with ⟨fld, hf, sub, hty, hd⟩ | e
      · have hm := (mem_bodies hb).1
        have hlt := sizeOf_sub (T := b.rep.name) (fields := b.rep.fields)
          (by obtain ⟨⟨_, _⟩, _, _⟩ := b; exact hm) hf hty
        obtain ⟨props, hp⟩ := ih sub (by omega) _ m alts hd a ha
        exact ⟨props, mem_collDecls.2 (.inl ⟨b, hb, mem_objDecls.2 (.inl ⟨fld, hf, sub, hty, hp⟩)⟩)⟩
      · exact TsDecl.noConfusion e
    · injection e with e1 e2
      rw [e2] at ha
      obtain ⟨b, hb, rfl⟩ := List.mem_map.1 ha
      exact ⟨_, mem_collDecls.2 (.inl ⟨b, hb, mem_objDecls.2 (.inr rfl)⟩)⟩

end Qlc
