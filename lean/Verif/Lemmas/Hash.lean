import Verif.Spec.Files
import Verif.Props.Determinism
import Verif.Props.Globals
import Verif.Props.Compile
/-
Hash orders and whole files: what the text of one file and of the globals file depends on.
-/
set_option autoImplicit false

namespace Qlc
open Spec

/-! ### Fragments only matter by name -/

section FragsCongr
variable {schema : Schema} {frags frags' : Frags}

theorem sameUse_of_get (h : ∀ n, AMap.get? frags n = AMap.get? frags' n) :
    SameUse schema frags frags' := fun n => .inl (h n)

theorem valid_congr (h : ∀ n, AMap.get? frags n = AMap.get? frags' n) (P : String)
    (items : List Selection) : Valid schema frags P items ↔ Valid schema frags' P items := by
  have : ∀ P sel, SelOk schema frags P sel ↔ SelOk schema frags' P sel := by
    intro P sel
    cases sel <;> simp [SelOk, h]
  simp [Valid, this]

theorem fragsValid_congr (h : ∀ n, AMap.get? frags n = AMap.get? frags' n)
    (hv : FragsValid schema frags) : FragsValid schema frags' := by
  intro name fd hf
  obtain ⟨h1, h2⟩ := hv name fd (by rw [h]; exact hf)
  exact ⟨h1, (valid_congr h _ _).1 h2⟩

theorem coll_congr (h : ∀ n, AMap.get? frags n = AMap.get? frags' n) {T P : String}
    {items : List Selection} {L : List Contribution} (hc : Coll schema frags T P items L) :
    Coll schema frags' T P items L := by
  induction hc with
  | nil => exact .nil
  | field h1 _ ih => exact .field h1 ih
  | inlineIn h1 _ _ ih1 ih2 => exact .inlineIn h1 ih1 ih2
  | inlineOut h1 _ ih => exact .inlineOut h1 ih
  | spreadIn h1 h2 _ _ ih1 ih2 => exact .spreadIn (by rw [← h]; exact h1) h2 ih1 ih2
  | spreadOut h1 h2 _ ih => exact .spreadOut (by rw [← h]; exact h1) h2 ih

theorem collMany_congr (h : ∀ n, AMap.get? frags n = AMap.get? frags' n) {T P : String}
    {sets : List (List Selection)} {L : List Contribution} (hc : CollMany schema frags T P sets L) :
    CollMany schema frags' T P sets L := by
  obtain ⟨Ls, h1, h2⟩ := hc
  exact ⟨Ls, h1.imp (fun _ _ hx => coll_congr h hx), h2⟩

theorem position_congr (h : ∀ n, AMap.get? frags n = AMap.get? frags' n) {P P' : String}
    {sets sets' : List (List Selection)} (hp : Position schema frags P sets P' sets') :
    Position schema frags' P sets P' sets' := by
  induction hp with
  | refl => exact .refl
  | step h1 h2 h3 _ ih => exact .step h1 (collMany_congr h h2) h3 ih

theorem oneTypePerKey_congr (h : ∀ n, AMap.get? frags n = AMap.get? frags' n) {P : String}
    {sets : List (List Selection)} (ho : OneTypePerKey schema frags P sets) :
    OneTypePerKey schema frags' P sets := by
  intro P' sets' hp T hT L hL
  exact ho P' sets' (position_congr (fun n => (h n).symm) hp) T hT L
    (collMany_congr (fun n => (h n).symm) hL)

end FragsCongr

/-! ### One file -/

section File
variable (ext : Ext) (cfg : CompileConfig) (schema : Schema) (w : World) (p : Path)

theorem inScope_foreign (ω : Hash) {contents : String} {fuel : Nat} {st : ImportSt}
    (hs : addImported w cfg fuel p contents ⟨[], []⟩ = some (.done st))
    (hu : ∀ f f', ImportedFragment ext w cfg p contents f → ImportedFragment ext w cfg p contents f' →
      f.name = f'.name → f = f') :
    InScope ext w cfg p contents (parseForeignFragments ω ext p st.imports st.messages).1 := by
  obtain ⟨h1, h2, _⟩ := C39_scope_and_errors ω ext p st.imports st.messages
  obtain ⟨c1, c2, _, _⟩ := C35_import_closure w cfg fuel p contents st hs
  have fwd : ∀ n f, AMap.get? (parseForeignFragments ω ext p st.imports st.messages).1 n = some f →
      f.name = n ∧ ImportedFragment ext w cfg p contents f := by
    intro n f hf
    obtain ⟨hn, ⟨q, c, loc⟩, he, hd⟩ := h1 n f hf
    exact ⟨hn, q, c, (c1 q).1 ⟨c, loc, he⟩, c2 q c loc he, hd⟩
  intro n f
  constructor
  · exact fwd n f
  · rintro ⟨rfl, q, c, hl, hr, hp⟩
    obtain ⟨c', loc, he⟩ := (c1 q).2 hl
    have hc := c2 q c' loc he
    rw [hr] at hc
    injection hc with hc
    subst hc
    obtain ⟨f', hf'⟩ := h2 _ he f hp
    obtain ⟨hn, hi⟩ := fwd _ _ hf'
    rw [hf', hu f' f hi ⟨q, c, hl, hr, hp⟩ hn]

theorem inScope_get {contents : String} {frags frags' : Frags} (h : InScope ext w cfg p contents frags)
    (h' : InScope ext w cfg p contents frags') (n : String) : AMap.get? frags n = AMap.get? frags' n := by
  cases hf : AMap.get? frags n with
  | none =>
    cases hf' : AMap.get? frags' n with
    | none => rfl
    | some f => rw [(h n f).2 ((h' n f).1 hf')] at hf; simp at hf
  | some f => rw [(h' n f).2 ((h n f).1 hf)]

theorem compile_det (ω ω' : Hash) (fuel fuel' : Nat) (showDep : Bool) (tcfg : TsConfig)
    {frags frags' : Frags} (hget : ∀ n, AMap.get? frags n = AMap.get? frags' n)
    (hcon : Consistent schema) (hfr : FragsValid schema frags) (d : Definition)
    (hone : ∀ P, rootType d = some P → OneTypePerKey schema frags P [itemsOf d])
    (hv : ((varsOf d).map VarDef.name).Nodup)
    {op : Operation} {ws ws' : List Warning} {r' : Except (List IrError) Operation}
    (h : Operation.compile ω fuel ⟨schema, showDep, frags⟩ d = some (.ok op, ws))
    (h' : Operation.compile ω' fuel' ⟨schema, showDep, frags'⟩ d = some (r', ws')) :
    r' = .ok op ∧ compileIr ω op tcfg schema = compileIr ω' op tcfg schema := by
  obtain ⟨P, hP, hcomp, hval, hvars⟩ :=
    (C07_compiles_iff_valid ω fuel showDep hcon d _ ws h).1 ⟨op, rfl⟩
  obtain ⟨op', rfl⟩ := (C07_compiles_iff_valid ω' fuel' showDep hcon d _ ws' h').2
    ⟨P, hP, hcomp, (valid_congr hget _ _).1 hval, hvars⟩
  have hd := C21_properties_listed_once ω fuel showDep hcon hfr d op ws P hP h (hone P hP)
  obtain ⟨_, _, ht, hf⟩ := compiled_tree hcon hP h
  obtain ⟨_, _, ht', hf'⟩ := compiled_tree hcon hP h'
  have hc : op.collection = op'.collection :=
    tree_unique collectorX_functional _ P _ _ _ le_rfl hd
      (treeX_sameUse (sameUse_of_get hget) _ _ _ _ (ht _)) (ht' _)
  have : op = op' := by
    rw [hc, hf'] at hf
    injection hf with hf
    exact hf.symm
  subst this
  exact ⟨rfl, C16_code_generation_deterministic ω ω' op tcfg schema (compile_finish_variables hf hv)⟩

end File

/-! ### The globals file -/

section GlobalsFile
variable {schema : Schema}

theorem insertJsonFields_keys : ∀ (fs : List JField) (m m' : FieldsLookup), (m.map Prod.fst).Nodup →
    insertJsonFields m fs = .ok m' → (m'.map Prod.fst).Nodup := by
  intro fs
  induction fs with
  | nil => intro m m' h e; simp only [insertJsonFields, Except.ok.injEq] at e; subst e; exact h
  | cons j fs ih =>
    intro m m' h e
    simp only [insertJsonFields] at e
    cases hf : SField.ofJson j with
    | error e' => rw [hf] at e; simp at e
    | ok f =>
      rw [hf] at e
      exact ih _ _ (AMap.nodup_keys_insert m j.name f h) e

theorem insertJsonTypes_inputs : ∀ (ts : List JType) (s s' : Schema), InputFieldsOnce s →
    insertJsonTypes s ts = .ok s' → InputFieldsOnce s' := by
  intro ts
  induction ts with
  | nil => intro s s' h e; simp only [insertJsonTypes, Except.ok.injEq] at e; subst e; exact h
  | cons j ts ih =>
    intro s s' h e
    simp only [insertJsonTypes] at e
    cases hf : SType.ofJson j with
    | error e' => rw [hf] at e; simp at e
    | ok t =>
      rw [hf] at e
      refine ih _ _ ?_ e
      intro n t' name fields ht hd
      unfold Schema.getType at ht
      rw [AMap.get?_insert] at ht
      split at ht
      · injection ht with ht
        subst ht
        unfold SType.ofJson at hf
        cases hj : TypeDef.ofJson j with
        | error e' => rw [hj] at hf; simp at hf
        | ok d =>
          rw [hj] at hf
          injection hf with hf
          subst hf
          simp only at hd
          subst hd
          unfold TypeDef.ofJson at hj
          repeat' split at hj
          all_goals first | (simp at hj; done) | skip
          rename_i m hm
          simp only [Except.ok.injEq, TypeDef.inputObject.injEq] at hj
          obtain ⟨_, rfl⟩ := hj
          unfold getFieldsForComplex at hm
          exact insertJsonFields_keys _ _ _ (by simp) hm
      · exact h n t' name fields ht hd

theorem ofJson_inputFieldsOnce {j : JSchema} {s : Schema} (h : Schema.ofJson j = .ok s) :
    InputFieldsOnce s :=
  insertJsonTypes_inputs j.types [] s (by intro n t _ _ ht; simp [Schema.getType, AMap.get?] at ht) h

theorem globalName_congr {used used' : List String} (h : ∀ n, n ∈ used ↔ n ∈ used') (n : String) :
    GlobalName schema used n ↔ GlobalName schema used' n := by
  rw [globalName_iff, globalName_iff]
  simp [h]

theorem globalDef_det (hk : InputFieldsOnce schema) (ω ω' : Hash) (cfg : TsConfig) (n : String)
    (t : SType) (ht : schema.getType n = some t) : globalDef ω cfg n t = globalDef ω' cfg n t := by
  unfold globalDef
  cases hd : t.definition with
  | inputObject name fields =>
    simp only
    unfold inputDefFromType
    have : sortBy Prod.fst (ω.perm ["typescript.rs:100"] fields) =
        sortBy Prod.fst (ω'.perm ["typescript.rs:100"] fields) := by
      refine sortBy_eq_of_perm _ ((ω.isPerm _ _).trans (ω'.isPerm _ _).symm) ?_
      exact ((ω.isPerm ["typescript.rs:100"] fields).map Prod.fst).nodup_iff.2 (hk n t name fields ht hd)
    rw [this]
  | _ => rfl

/-- The collected types of two runs are the same up to order. -/
theorem collected_perm {m m' : NameToType} (g : GoodMap schema m) (g' : GoodMap schema m')
    (h : ∀ k, k ∈ m.keys ↔ k ∈ m'.keys) : List.Perm m m' := by
  have nd : List.Nodup m := List.Nodup.of_map Prod.fst g.nodup
  have nd' : List.Nodup m' := List.Nodup.of_map Prod.fst g'.nodup
  rw [List.perm_ext_iff_of_nodup nd nd']
  have half : ∀ {m m' : NameToType}, GoodMap schema m → GoodMap schema m' →
      (∀ k, k ∈ m.keys ↔ k ∈ m'.keys) → ∀ e ∈ m, e ∈ m' := by
    intro m m' g g' h e he
    obtain ⟨k, v⟩ := e
    have hk : k ∈ m'.keys := (h k).1 (List.mem_map.2 ⟨_, he, rfl⟩)
    obtain ⟨⟨k', v'⟩, he', e'⟩ := List.mem_map.1 hk
    simp only at e'
    subst e'
    have a := g.agrees _ _ (AMap.get?_of_mem g.nodup he)
    have b := g'.agrees _ _ (AMap.get?_of_mem g'.nodup he')
    rw [a] at b
    injection b with b
    subst b
    exact he'
  exact fun e => ⟨half g g' h e, half g' g (fun k => (h k).symm) e⟩

/-- The text of the globals file depends only on the set of used names. -/
theorem compileGlobals_det (hk : InputFieldsOnce schema) (ω ω' : Hash) (fuel fuel' : Nat)
    (cfg : TsConfig) {used used' : List String} (hu : ∀ n, n ∈ used ↔ n ∈ used') {t : String}
    {r' : Except TsError String} (h : compileGlobals ω fuel cfg schema used = some (.ok t))
    (h' : compileGlobals ω' fuel' cfg schema used' = some r') : r' = .ok t := by
  have hall := (C32_globals_ok_iff ω fuel cfg schema used _ h).1 ⟨t, rfl⟩
  obtain ⟨t', rfl⟩ := (C32_globals_ok_iff ω' fuel' cfg schema used' _ h').2
    (fun n hn => hall n ((globalName_congr hu n).2 hn))
  congr 1
  unfold compileGlobals globalTypesFromNames at h h'
  cases hl : globalNameLoop ω fuel schema (ω.perm ["typescript.rs:201"] used) [] with
  | none => simp [hl] at h
  | some r =>
    cases r with
    | error e => simp [hl] at h
    | ok m =>
      cases hl' : globalNameLoop ω' fuel' schema (ω'.perm ["typescript.rs:201"] used') [] with
      | none => simp [hl'] at h'
      | some r =>
        cases r with
        | error e => simp [hl'] at h'
        | ok m' =>
          obtain ⟨g, k⟩ := collected ω fuel schema used hl
          obtain ⟨g', k'⟩ := collected ω' fuel' schema used' hl'
          have hp := collected_perm g g' (fun n => by rw [k, k', globalName_congr hu])
          have hsort : sortBy Prod.fst (ω.perm ["typescript.rs:209"] m) =
              sortBy Prod.fst (ω'.perm ["typescript.rs:209"] m') := by
            refine sortBy_eq_of_perm _ (((ω.isPerm _ _).trans hp).trans (ω'.isPerm _ _).symm) ?_
            exact ((ω.isPerm ["typescript.rs:209"] m).map Prod.fst).nodup_iff.2 g.nodup
          have hdefs : (sortBy Prod.fst (ω.perm ["typescript.rs:209"] m)).map
                (fun e => globalDef ω cfg e.1 e.2) =
              (sortBy Prod.fst (ω'.perm ["typescript.rs:209"] m')).map
                (fun e => globalDef ω' cfg e.1 e.2) := by
            rw [← hsort]
            apply List.map_congr_left
            rintro ⟨n, v⟩ he
            have hm : (n, v) ∈ m := ((sortBy_perm _ _).trans (ω.isPerm _ _)).mem_iff.1 he
            exact globalDef_det hk ω ω' cfg n v (g.agrees _ _ (AMap.get?_of_mem g.nodup hm))
          simp only [hl] at h
          simp only [hl', ← hdefs] at h'
          revert h h'
          cases seqE ((sortBy Prod.fst (ω.perm ["typescript.rs:209"] m)).map
            (fun e => globalDef ω cfg e.1 e.2)) with
          | error e => simp
          | ok ds =>
            simp only [Option.some.injEq, Except.ok.injEq]
            intro a b
            rw [← a, ← b]

end GlobalsFile

end Qlc
