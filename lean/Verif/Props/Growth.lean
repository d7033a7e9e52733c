import Verif.Spec.Growth
import Verif.Props.Same
import Verif.Lemmas.Loaded
import Verif.Props.Selections
import Verif.Props.Response
/-
C97: a schema that grows leaves the generated files alone.
-/
set_option autoImplicit false

namespace Qlc
open Spec

variable {schema schema' : Schema} {frags : Frags} {doc doc' : JSchema}

/-- What growth means for the loaded schemas. -/
structure SchemaGrows (schema schema' : Schema) : Prop where
  con : Consistent schema
  con' : Consistent schema'
  composite : ∀ P, IsComposite schema P → IsComposite schema' P
  field : ∀ P name f, fieldOf schema P name = some f → fieldOf schema' P name = some f
  possible : ∀ P, IsComposite schema P → ∀ T, T ∈ possibleTypes schema P ↔ T ∈ possibleTypes schema' P
  known : ∀ n t, schema.getType n = some t → ∃ t', schema'.getType n = some t'
  scalar : ∀ n t, schema.getType n = some t → (IsScalarType schema n ↔ IsScalarType schema' n)

theorem loaded_scalar (h : Schema.ofJson doc = .ok schema) (n : String) :
    IsScalarType schema n ↔ kindNamed doc n = some "SCALAR" := by
  have ht := loaded_type h n
  unfold IsScalarType kindNamed
  cases hj : typeNamed doc n with
  | none =>
    rw [hj] at ht
    simp only at ht
    simp [ht]
  | some j =>
    rw [hj] at ht
    obtain ⟨t, hg, hd⟩ := ht
    simp only [hg, Option.some.injEq, Option.map_some]
    rcases typeDef_cases hd with ⟨hk, _, _, _, _, e⟩ | ⟨hk, _, _, _, _, _, _, e⟩ | ⟨hk, _, _, e⟩ | h' | h' | h'
    · rw [hk]; simp [e]
    · rw [hk]; simp [e]
    · rw [hk]; simp [e]
    · obtain ⟨hk, m, e⟩ := h'
      rw [hk]; simp [e]
    · obtain ⟨hk, vs, _, e⟩ := h'
      rw [hk]; simp [e]
    · obtain ⟨hk, e⟩ := h'
      rw [hk]; simp [e]

/-- A composite type answers its declared fields and `__typename`. -/
theorem loaded_answers (h : Schema.ofJson doc = .ok schema) {P : String} (hP : CompositeNamed doc P) (name : String) :
    match lastNamed JField.name name (declaredFields doc P) with
    | some j => ∃ f, fieldOf schema P name = some f ∧ SField.ofJson j = .ok f
    | none => fieldOf schema P name = if name = "__typename" then some SField.newTypeName else none := by
  have ht := loaded_type h P
  obtain ⟨k, hk, hc⟩ := hP
  unfold kindNamed at hk
  unfold fieldOf fieldsOf declaredFields
  cases hj : typeNamed doc P with
  | none => rw [hj] at hk; simp at hk
  | some j =>
    rw [hj] at ht hk
    simp only [Option.map_some, Option.some.injEq] at hk
    subst hk
    obtain ⟨t, ht, hd⟩ := ht
    rw [ht]
    rcases typeDef_cases hd with ⟨hk, fs, m, h1, h2, e⟩ | ⟨hk, fs, ps, m, h1, _, h2, e⟩ | ⟨hk, ps, hp, e⟩ |
      ⟨hk, m, e⟩ | ⟨hk, vs, _, e⟩ | ⟨hk, e⟩
    · simp only [e, hk, h1, true_or, if_true, Option.getD_some, Option.bind_some]
      exact getFields_get h2 name
    · simp only [e, hk, h1, or_true, if_true, Option.getD_some, Option.bind_some]
      exact getFields_get h2 name
    · simp only [e, hk, Option.bind_some]
      by_cases hn : name = "__typename"
      · subst hn; rfl
      · simp [lastNamed, AMap.get?, hn, Ne.symm hn]
    · rw [hk] at hc; simp [CompositeKind] at hc
    · rw [hk] at hc; simp [CompositeKind] at hc
    · rw [hk] at hc; simp [CompositeKind] at hc

theorem grows_loaded (hv : ValidDoc doc) (hv' : ValidDoc doc') (h : Schema.ofJson doc = .ok schema)
    (h' : Schema.ofJson doc' = .ok schema') (hg : Grows doc doc') : SchemaGrows schema schema' := by
  have hkind : ∀ n t, schema.getType n = some t → ∃ k, kindNamed doc n = some k := by
    intro n t ht
    have := loaded_type h n
    unfold kindNamed
    cases hj : typeNamed doc n with
    | none => rw [hj] at this; simp only at this; rw [this] at ht; simp at ht
    | some j => exact ⟨j.kind, rfl⟩
  refine ⟨loaded_consistent hv h, loaded_consistent hv' h', ?_, ?_, ?_, ?_, ?_⟩
  · intro P hP
    rw [loaded_composite h] at hP
    rw [loaded_composite h']
    obtain ⟨k, hk, hc⟩ := hP
    exact ⟨k, hg.kinds P k hk, hc⟩
  · intro P name f hf
    have hcomp : IsComposite schema P := by
      unfold fieldOf at hf
      unfold IsComposite
      cases hx : fieldsOf schema P with
      | none => rw [hx] at hf; simp at hf
      | some fl => rfl
    have hcomp' : IsComposite schema' P := by
      rw [loaded_composite h] at hcomp
      rw [loaded_composite h']
      obtain ⟨k, hk, hc⟩ := hcomp
      exact ⟨k, hg.kinds P k hk, hc⟩
    rcases loaded_field h hv.reserved hf with ⟨rfl, rfl⟩ | ⟨hn, j, hl, hj⟩
    · have := loaded_answers h' ((loaded_composite h' P).1 hcomp') "__typename"
      cases hl : lastNamed JField.name "__typename" (declaredFields doc' P) with
      | some j =>
        obtain ⟨hm, hn⟩ := lastNamed_name hl
        exact absurd hn (hv'.reserved P j hm)
      | none => rw [hl] at this; simpa using this
    · have := loaded_answers h' ((loaded_composite h' P).1 hcomp') name
      rw [hg.fields P name j hl] at this
      obtain ⟨f', h1, h2⟩ := this
      rw [hj] at h2
      injection h2 with h2
      rw [h1, h2]
  · intro P hP T
    rw [loaded_composite h] at hP
    rw [loaded_possible h, loaded_possible h']
    exact hg.objects P hP T
  · intro n t ht
    obtain ⟨k, hk⟩ := hkind n t ht
    have := hg.kinds n k hk
    unfold kindNamed at this
    have ht' := loaded_type h' n
    cases hj : typeNamed doc' n with
    | none => rw [hj] at this; simp at this
    | some j => rw [hj] at ht'; obtain ⟨t', h1, _⟩ := ht'; exact ⟨t', h1⟩
  · intro n t ht
    obtain ⟨k, hk⟩ := hkind n t ht
    rw [loaded_scalar h, loaded_scalar h', hk, hg.kinds n k hk]

namespace SchemaGrows

/-- The type of a known field is composite in both schemas or in neither. -/
theorem leaf (hg : SchemaGrows schema schema') {P name : String} {f : SField} (hf : fieldOf schema P name = some f) :
    IsComposite schema f.type.name ↔ IsComposite schema' f.type.name := by
  rw [← (hg.con P name f hf).2, (hg.con' P name f (hg.field P name f hf)).2]

mutual
theorem validSel (hg : SchemaGrows schema schema') (P : String) : ∀ (s : Selection),
    invalidSel schema frags P s = [] → invalidSel schema' frags P s = []
  | .field pos al name args dirs items, h => by
    unfold invalidSel at h ⊢
    cases hf : fieldOf schema P name with
    | none => rw [hf] at h; simp at h
    | some f =>
      rw [hf] at h
      rw [hg.field P name f hf]
      simp only at h ⊢
      split at h
      · rename_i hc
        rw [if_pos ((hg.leaf hf).1 hc)]
        split at h
        · simp at h
        · rename_i he
          rw [if_neg he]
          exact validSels hg f.type.name items h
      · rename_i hc
        rw [if_neg (fun x => hc ((hg.leaf hf).2 x))]
        split at h
        · rename_i he; rw [if_pos he]
        · simp at h
  | .inline pos none dirs items, h => by unfold invalidSel at h; simp at h
  | .inline pos (some C) dirs items, h => by
    unfold invalidSel at h ⊢
    split at h
    · rename_i hc
      rw [if_pos (hg.composite C hc)]
      exact validSels hg C items h
    · simp at h
  | .spread pos name dirs, h => by
    unfold invalidSel at h ⊢
    exact h
theorem validSels (hg : SchemaGrows schema schema') (P : String) : ∀ (items : List Selection),
    invalidSelections schema frags P items = [] → invalidSelections schema' frags P items = []
  | [], _ => by unfold invalidSelections; rfl
  | s :: rest, h => by
    unfold invalidSelections at h ⊢
    rw [List.append_eq_nil_iff] at h ⊢
    exact ⟨validSel hg P s h.1, validSels hg P rest h.2⟩
end

theorem valid (hg : SchemaGrows schema schema') {P : String} {items : List Selection}
    (h : Valid schema frags P items) : Valid schema' frags P items :=
  (valid_iff _ _).2 (hg.validSels P items ((valid_iff _ _).1 h))

theorem fragsValid (hg : SchemaGrows schema schema') (h : FragsValid schema frags) : FragsValid schema' frags :=
  fun name fd hn => ⟨hg.composite _ (h name fd hn).1, hg.valid (h name fd hn).2⟩

end SchemaGrows

theorem valid_cons {P : String} {s : Selection} {rest : List Selection} :
    Valid schema frags P (s :: rest) ↔ invalidSel schema frags P s = [] ∧ Valid schema frags P rest := by
  rw [valid_iff, valid_iff]
  conv => lhs; unfold invalidSelections
  rw [List.append_eq_nil_iff]

theorem valid_mem {P : String} {items : List Selection} (h : Valid schema frags P items) {s : Selection}
    (hs : s ∈ items) : invalidSel schema frags P s = [] := by
  induction items with
  | nil => simp at hs
  | cons a rest ih =>
    rw [valid_cons] at h
    rcases List.mem_cons.1 hs with rfl | hs
    · exact h.1
    · exact ih h.2 hs

theorem invalidSel_field {P : String} {pos : Pos} {al : Option String} {name : String} {args : List (String × Value)}
    {dirs : List Directive} {items : List Selection}
    (h : invalidSel schema frags P (.field pos al name args dirs items) = []) :
    ∃ f, fieldOf schema P name = some f ∧ (IsComposite schema f.type.name → Valid schema frags f.type.name items) := by
  unfold invalidSel at h
  cases hf : fieldOf schema P name with
  | none => rw [hf] at h; simp at h
  | some f =>
    rw [hf] at h
    refine ⟨f, rfl, fun hc => ?_⟩
    simp only [if_pos hc] at h
    split at h
    · simp at h
    · exact (valid_iff _ _).2 h

theorem invalidSel_inline {P C : String} {pos : Pos} {dirs : List Directive} {items : List Selection}
    (h : invalidSel schema frags P (.inline pos (some C) dirs items) = []) :
    IsComposite schema C ∧ Valid schema frags C items := by
  unfold invalidSel at h
  split at h
  · rename_i hc; exact ⟨hc, (valid_iff _ _).2 h⟩
  · simp at h

namespace SchemaGrows

/-- A valid selection set collects over the larger schema what it collects over the smaller. -/
theorem coll (hg : SchemaGrows schema schema') (hfr : FragsValid schema frags) {T P : String}
    {items : List Selection} {L : List Contribution} (h : Coll schema' frags T P items L) :
    Valid schema frags P items → Coll schema frags T P items L ∧
      ∀ c ∈ L, (IsComposite schema c.field.type.name ↔ IsComposite schema' c.field.type.name) ∧
        (IsComposite schema c.field.type.name → Valid schema frags c.field.type.name c.items) := by
  induction h with
  | nil => intro _; exact ⟨.nil, by simp⟩
  | @field P pos al name args dirs items rest f L hf _ ih =>
    intro hv
    rw [valid_cons] at hv
    obtain ⟨f', hf', hsub⟩ := invalidSel_field hv.1
    have := hg.field _ _ _ hf'
    rw [hf] at this
    injection this with this
    subst this
    obtain ⟨i1, i2⟩ := ih hv.2
    refine ⟨.field hf' i1, ?_⟩
    intro c hc
    rcases List.mem_cons.1 hc with rfl | hc
    · exact ⟨hg.leaf hf', hsub⟩
    · exact i2 c hc
  | inlineIn hT _ _ ih1 ih2 =>
    intro hv
    rw [valid_cons] at hv
    obtain ⟨hC, hv1⟩ := invalidSel_inline hv.1
    obtain ⟨i1, i2⟩ := ih1 hv1
    obtain ⟨j1, j2⟩ := ih2 hv.2
    refine ⟨.inlineIn ((hg.possible _ hC _).2 hT) i1 j1, ?_⟩
    intro c hc
    rcases List.mem_append.1 hc with hc | hc
    · exact i2 c hc
    · exact j2 c hc
  | inlineOut hT _ ih =>
    intro hv
    rw [valid_cons] at hv
    obtain ⟨hC, hv1⟩ := invalidSel_inline hv.1
    obtain ⟨i1, i2⟩ := ih hv.2
    exact ⟨.inlineOut (fun x => hT ((hg.possible _ hC _).1 x)) i1, i2⟩
  | spreadIn hn hT _ _ ih1 ih2 =>
    intro hv
    rw [valid_cons] at hv
    obtain ⟨hC, hv1⟩ := hfr _ _ hn
    obtain ⟨i1, i2⟩ := ih1 hv1
    obtain ⟨j1, j2⟩ := ih2 hv.2
    refine ⟨.spreadIn hn ((hg.possible _ hC _).2 hT) i1 j1, ?_⟩
    intro c hc
    rcases List.mem_append.1 hc with hc | hc
    · exact i2 c hc
    · exact j2 c hc
  | spreadOut hn hT _ ih =>
    intro hv
    rw [valid_cons] at hv
    obtain ⟨hC, hv1⟩ := hfr _ _ hn
    obtain ⟨i1, i2⟩ := ih hv.2
    exact ⟨.spreadOut hn (fun x => hT ((hg.possible _ hC _).1 x)) i1, i2⟩

theorem collMany (hg : SchemaGrows schema schema') (hfr : FragsValid schema frags) {T P : String}
    {sets : List (List Selection)} {L : List Contribution} (h : CollMany schema' frags T P sets L)
    (hv : ∀ s ∈ sets, Valid schema frags P s) : CollMany schema frags T P sets L ∧
      ∀ c ∈ L, (IsComposite schema c.field.type.name ↔ IsComposite schema' c.field.type.name) ∧
        (IsComposite schema c.field.type.name → Valid schema frags c.field.type.name c.items) := by
  obtain ⟨Ls, hF, rfl⟩ := h
  revert hv
  induction hF with
  | nil => intro _; exact ⟨⟨[], .nil, rfl⟩, by simp⟩
  | @cons a b as bs h1 _ ih =>
    intro hv
    obtain ⟨⟨Ls, i1, i2⟩, i3⟩ := ih (fun s hs => hv s (List.mem_cons_of_mem _ hs))
    obtain ⟨j1, j2⟩ := hg.coll hfr h1 (hv _ (List.mem_cons_self ..))
    refine ⟨⟨b :: Ls, .cons j1 i1, by simp [i2]⟩, ?_⟩
    intro c hm
    rw [List.flatten_cons, List.mem_append] at hm
    rcases hm with hm | hm
    · exact j2 c hm
    · exact i3 c hm

/-- The sets merged under a response key are valid where they are evaluated. -/
theorem sub_valid {L : List Contribution}
    (hsub : ∀ c ∈ L, (IsComposite schema c.field.type.name ↔ IsComposite schema' c.field.type.name) ∧
        (IsComposite schema c.field.type.name → Valid schema frags c.field.type.name c.items))
    (hone : ∀ c ∈ L, ∀ c' ∈ L, c.key = c'.key → c.field.type.name = c'.field.type.name)
    {c : Contribution} (hc : c ∈ L) (hcomp : IsComposite schema c.field.type.name) :
    ∀ s ∈ merged L c.key, Valid schema frags c.field.type.name s := by
  intro s hs
  obtain ⟨x, hx, rfl⟩ := List.mem_map.1 hs
  obtain ⟨hx, hk⟩ := List.mem_filter.1 hx
  have e := hone x hx c hc (of_decide_eq_true hk)
  rw [← e]
  exact (hsub x hx).2 (by rw [e]; exact hcomp)

theorem sameTo (hg : SchemaGrows schema schema') (hfr : FragsValid schema frags) (n : Nat) :
    ∀ (P : String) (sets : List (List Selection)), IsComposite schema P → (∀ s ∈ sets, Valid schema frags P s) →
    OneTypePerKey schema frags P sets → SameTo schema schema' frags frags n P sets P sets := by
  induction n with
  | zero => intro P sets _ _ _; trivial
  | succ n ih =>
    intro P sets hP hv hone
    refine ⟨hg.possible P hP, ?_⟩
    intro T hT L L' hL hL'
    obtain ⟨h1, hsub⟩ := hg.collMany hfr hL' hv
    have e := collMany_functional _ _ _ _ _ hL h1
    subst e
    have hone0 := hone P sets .refl T hT L hL
    intro key
    cases hf : L.filter (fun c => decide (c.key = key)) with
    | nil => trivial
    | cons c rest =>
      obtain ⟨hc, rfl⟩ := mem_of_filter hf
      refine ⟨rfl, rfl, rfl, rfl, ?_⟩
      obtain ⟨P', name, hfo⟩ := collMany_field hL c hc
      cases hcx : c.field.type.definition.isComplex with
      | false => exact .inr ⟨rfl, rfl, fun _ => rfl⟩
      | true =>
        have hcomp := ((hg.con P' name _ hfo).2).1 hcx
        refine .inl ⟨rfl, rfl, ih _ _ hcomp (sub_valid hsub hone0 hc hcomp) ?_⟩
        exact fun P' sets' hp => hone P' sets' (.step hT hL hc hp)

theorem oneType (hg : SchemaGrows schema schema') (hfr : FragsValid schema frags) {P P' : String}
    {sets sets' : List (List Selection)} (hp : Position schema' frags P sets P' sets') :
    IsComposite schema P → (∀ s ∈ sets, Valid schema frags P s) → OneTypePerKey schema frags P sets →
    ∀ T ∈ possibleTypes schema' P', T ∈ possibleTypes schema P' ∧
      (∀ s ∈ sets', Valid schema frags P' s) ∧ OneTypePerKey schema frags P' sets' := by
  induction hp with
  | refl => intro hP hv hone T hT; exact ⟨(hg.possible _ hP T).2 hT, hv, hone⟩
  | @step P sets P' sets' T₀ L c hT₀ hL hc hrest ih =>
    intro hP hv hone
    obtain ⟨h1, hsub⟩ := hg.collMany hfr hL hv
    have hT := (hg.possible P hP T₀).2 hT₀
    have hone0 := hone P sets .refl T₀ hT L h1
    have hone1 : OneTypePerKey schema frags c.field.type.name (merged L c.key) :=
      fun P' sets' hp => hone P' sets' (.step hT h1 hc hp)
    by_cases hcomp : IsComposite schema c.field.type.name
    · exact ih hcomp (sub_valid hsub hone0 hc hcomp) hone1
    · have hcomp' : ¬ IsComposite schema' c.field.type.name := fun x => hcomp ((hsub c hc).1.2 x)
      intro T hT
      exfalso
      cases hrest with
      | refl => exact hcomp' (composite_of_possible hT)
      | step h _ _ _ => exact hcomp' (composite_of_possible h)

theorem oneTypePerKey (hg : SchemaGrows schema schema') (hfr : FragsValid schema frags) {P : String}
    {sets : List (List Selection)} (hP : IsComposite schema P) (hv : ∀ s ∈ sets, Valid schema frags P s)
    (hone : OneTypePerKey schema frags P sets) : OneTypePerKey schema' frags P sets := by
  intro P' sets' hp T hT L hL
  obtain ⟨h1, h2, h3⟩ := hg.oneType hfr hp hP hv hone T hT
  exact h3 P' sets' .refl T h1 L (hg.collMany hfr hL h2).1

theorem fits (hg : SchemaGrows schema schema') (hfr : FragsValid schema frags) (n : Nat) :
    ∀ (P : String) (items : List Selection), Valid schema frags P items → Fits schema frags n (P, items) →
    Fits schema' frags n (P, items) := by
  induction n with
  | zero => intro P items _ h; exact h
  | succ n ih =>
    intro P items hv h y hy
    cases hy with
    | field hm hf hc hs =>
      obtain ⟨f', hf', hsub⟩ := invalidSel_field (valid_mem hv hm)
      have := hg.field _ _ _ hf'
      rw [hf] at this
      injection this with this
      subst this
      have hc' := (hg.leaf hf').2 hc
      exact ih _ _ (hsub hc') (h _ (.field hm hf' hc' hs))
    | inline hm hc =>
      obtain ⟨hC, hv1⟩ := invalidSel_inline (valid_mem hv hm)
      exact ih _ _ hv1 (h _ (.inline hm hC))
    | spread hm hn hc =>
      obtain ⟨hC, hv1⟩ := hfr _ _ hn
      exact ih _ _ hv1 (h _ (.spread hm hn hC))

end SchemaGrows

/-- **C97.** A definition that compiles still compiles after the schema has grown, whatever the hash order, and
generates the same file. -/
theorem C97_growth_keeps_text (ω ω' : Hash) (fuel : Nat) (showDep showDep' : Bool) (cfg : TsConfig)
    (hv : ValidDoc doc) (hv' : ValidDoc doc') (hs : Schema.ofJson doc = .ok schema)
    (hs' : Schema.ofJson doc' = .ok schema') (hg : Grows doc doc') (hfr : FragsValid schema frags) (d : Definition)
    (op : Operation) (ws : List Warning) (P : String) (hP : rootType d = some P)
    (h : Operation.compile ω fuel ⟨schema, showDep, frags⟩ d = some (.ok op, ws))
    (hone : OneTypePerKey schema frags P [itemsOf d]) (hvars : ((varsOf d).map VarDef.name).Nodup) :
    ∃ ws', Operation.compile ω' fuel ⟨schema', showDep', frags⟩ d = some (.ok op, ws') ∧
      compileIr ω op cfg schema = compileIr ω' op cfg schema' := by
  have G := grows_loaded hv hv' hs hs' hg
  obtain ⟨P₀, hP₀, hcomp, hval, hvs⟩ := (C07_compiles_iff_valid ω fuel showDep G.con d _ ws h).1 ⟨op, rfl⟩
  rw [hP] at hP₀
  injection hP₀ with hP₀
  subst hP₀
  have hvalid : ∀ s ∈ [itemsOf d], Valid schema frags P s := by
    intro s hs; rw [List.mem_singleton] at hs; subst hs; exact hval
  have hfits : Fits schema frags fuel (P, itemsOf d) := by
    by_contra hf
    have := (compile_none_iff ω fuel showDep G.con d).2 ⟨P, hP, hcomp, hf⟩
    rw [this] at h; simp at h
  cases h' : Operation.compile ω' fuel ⟨schema', showDep', frags⟩ d with
  | none =>
    obtain ⟨P₁, hP₁, _, hf⟩ := (compile_none_iff ω' fuel showDep' G.con' d).1 h'
    rw [hP] at hP₁
    injection hP₁ with hP₁
    subst hP₁
    exact absurd (G.fits hfr fuel P _ hval hfits) hf
  | some r =>
    obtain ⟨r, ws'⟩ := r
    have hok : ∃ op', r = .ok op' := by
      rw [C07_compiles_iff_valid ω' fuel showDep' G.con' d r ws' h']
      refine ⟨P, hP, G.composite P hcomp, G.valid hval, ?_⟩
      intro v hm
      obtain ⟨h1, h2⟩ := hvs v hm
      refine ⟨h1, ?_⟩
      rcases h2 with h2 | ⟨t, h2⟩
      · exact .inl h2
      · exact .inr (G.known _ t h2)
    obtain ⟨op', rfl⟩ := hok
    have hhead : SameHead d d := by
      cases d with
      | selectionSet pos items => simp [rootType] at hP
      | operation kw pos name vars dirs items => exact .operation rfl
      | fragment f => exact .fragment rfl
    have hkinds : VariableKindsAgree schema schema' d := by
      intro v hm hb
      rcases (hvs v hm).2 with h2 | ⟨t, h2⟩
      · exact absurd h2 hb
      · exact G.scalar _ t h2
    obtain ⟨e, ht⟩ := C95_same_data_same_text ω ω' fuel fuel showDep showDep' cfg G.con G.con' hfr (G.fragsValid hfr) d d
      op op' ws ws' P P hP hP h h' hone (G.oneTypePerKey hfr hcomp hvalid hone) hhead hvars hkinds
      (fun n => G.sameTo hfr n P _ hcomp hvalid hone)
    subst e
    exact ⟨ws', rfl, ht⟩

/-! ### A case -/

/-- Type references are equal. -/
def sameRefB : JFieldType → JFieldType → Bool
  | .mk k n none, .mk k' n' none => decide (k = k') && decide (n = n')
  | .mk k n (some t), .mk k' n' (some t') => decide (k = k') && decide (n = n') && sameRefB t t'
  | _, _ => false

theorem sameRefB_sound : ∀ (a b : JFieldType), sameRefB a b = true → a = b
  | .mk k n none, .mk k' n' none, h => by
    simp only [sameRefB, Bool.and_eq_true, decide_eq_true_eq] at h
    rw [h.1, h.2]
  | .mk k n (some t), .mk k' n' (some t'), h => by
    simp only [sameRefB, Bool.and_eq_true, decide_eq_true_eq] at h
    rw [h.1.1, h.1.2, sameRefB_sound t t' h.2]
  | .mk _ _ none, .mk _ _ (some _), h => by simp [sameRefB] at h
  | .mk _ _ (some _), .mk _ _ none, h => by simp [sameRefB] at h

/-- A check for `Grows`. -/
def growsB (doc doc' : JSchema) : Bool :=
  doc.types.all (fun t =>
    decide (kindNamed doc' t.name = kindNamed doc t.name) &&
    (declaredFields doc t.name).all (fun f =>
      match lastNamed JField.name f.name (declaredFields doc t.name),
        lastNamed JField.name f.name (declaredFields doc' t.name) with
      | some g, some g' => decide (g.name = g'.name) && decide (g.description = g'.description) &&
          sameRefB g.typeInformation g'.typeInformation && decide (g.deprecated = g'.deprecated)
      | _, _ => false) &&
    (objectTypes doc t.name).all (fun T => decide (T ∈ objectTypes doc' t.name)) &&
    (objectTypes doc' t.name).all (fun T => decide (T ∈ objectTypes doc t.name)))

theorem kindNamed_listed {n k : String} (h : kindNamed doc n = some k) : ∃ t ∈ doc.types, t.name = n := by
  unfold kindNamed at h
  cases hj : typeNamed doc n with
  | none => rw [hj] at h; simp at h
  | some j => exact ⟨j, lastNamed_name hj⟩

theorem growsB_sound (h : growsB doc doc' = true) : Grows doc doc' := by
  unfold growsB at h
  rw [List.all_eq_true] at h
  simp only [Bool.and_eq_true, decide_eq_true_eq, List.all_eq_true] at h
  refine ⟨?_, ?_, ?_⟩
  · intro n k hk
    obtain ⟨t, ht, rfl⟩ := kindNamed_listed hk
    rw [(h t ht).1.1.1, hk]
  · intro P name f hf
    obtain ⟨hm, hn⟩ := lastNamed_name hf
    have hP : ∃ t ∈ doc.types, t.name = P := by
      unfold declaredFields at hm
      cases hj : typeNamed doc P with
      | none => rw [hj] at hm; simp at hm
      | some j => exact ⟨j, lastNamed_name hj⟩
    obtain ⟨t, ht, rfl⟩ := hP
    have := (h t ht).1.1.2 f hm
    rw [hn, hf] at this
    cases hg : lastNamed JField.name name (declaredFields doc' t.name) with
    | none => rw [hg] at this; simp at this
    | some g =>
      rw [hg] at this
      simp only [Bool.and_eq_true, decide_eq_true_eq] at this
      obtain ⟨⟨⟨a, b⟩, c⟩, d⟩ := this
      replace c := sameRefB_sound _ _ c
      obtain ⟨_, _, _, _⟩ := f
      obtain ⟨_, _, _, _⟩ := g
      simp only at a b c d
      subst a b c d
      rfl
  · intro P hP T
    obtain ⟨k, hk, _⟩ := hP
    obtain ⟨t, ht, rfl⟩ := kindNamed_listed hk
    exact ⟨(h t ht).1.2 T, (h t ht).2 T⟩

theorem grown_grows : Grows Demo.respJson Demo.grownJson := growsB_sound (by decide +kernel)

theorem grown_loads : Schema.ofJson Demo.grownJson = .ok Demo.grownSchema := loads_of_check (by decide +kernel)

/-- The demo query and the grown schema meet the hypotheses. -/
example : ∃ op ws ws', Operation.compile .inOrder 9 ⟨Demo.respSchema, true, Demo.ctx.fragments⟩ Demo.query =
      some (.ok op, ws) ∧
    Operation.compile .reversed 9 ⟨Demo.grownSchema, true, Demo.ctx.fragments⟩ Demo.query = some (.ok op, ws') ∧
    compileIr .inOrder op Demo.tsCfg Demo.respSchema = compileIr .reversed op Demo.tsCfg Demo.grownSchema ∧
    (compileIr .inOrder op Demo.tsCfg Demo.respSchema).toOption.isSome = true := by
  obtain ⟨op, ws, c, h, hc, hd, _⟩ := respChecks_sound resp_checks
  have hcon := loaded_consistent resp_valid resp_loads
  obtain ⟨ws', h', ht⟩ := C97_growth_keeps_text .inOrder .reversed 9 true true Demo.tsCfg resp_valid
    (validDocB_sound (by decide +kernel)) resp_loads grown_loads grown_grows resp_frags_valid Demo.query op ws "Query" rfl h
    ((C21_listed_once_iff .inOrder 9 true hcon resp_frags_valid Demo.query op ws "Query" rfl h).1 hd) (by decide)
  exact ⟨op, ws, ws', h, h', ht, by rw [hc]; rfl⟩

/-- `schema { Query { node: Node } }` with the given implementations of `Node`. -/
def implsJson (impls : List String) : JSchema := ⟨[
  ⟨"OBJECT", "Query", none, none, none, some [Demo.fld "node" (Demo.t "INTERFACE" "Node")], none⟩,
  ⟨"INTERFACE", "Node", none, some impls, none, some [Demo.fld "id" (Demo.t "SCALAR" "ID")], none⟩,
  ⟨"OBJECT", "User", none, none, none, some [Demo.fld "id" (Demo.t "SCALAR" "ID")], none⟩,
  ⟨"OBJECT", "Bot", none, none, none, some [Demo.fld "id" (Demo.t "SCALAR" "ID")], none⟩,
  ⟨"SCALAR", "ID", none, none, none, none, none⟩]⟩

/-- The schema loaded from it. -/
def implsSchema (impls : List String) : Schema :=
  match Schema.ofJson (implsJson impls) with | .ok s => s | .error _ => []

/-- `query Q { node { __typename } }`. -/
def implsQuery : Definition := .operation .query ⟨1, 1⟩ (some "Q") [] []
  [.field ⟨2, 1⟩ none "node" [] [] [Demo.leaf 3 1 "__typename"]]

/-- **C97, what does not count as growth.** A new implementation of an interface changes the generated files. -/
theorem C97_new_implementation_changes_text : ∃ t t', ValidDoc (implsJson ["User"]) ∧
    ValidDoc (implsJson ["User", "Bot"]) ∧
    Demo.textOf Demo.tsCfg (implsSchema ["User"]) [] implsQuery = some t ∧
    Demo.textOf Demo.tsCfg (implsSchema ["User", "Bot"]) [] implsQuery = some t' ∧ t ≠ t' := by
  have h1 : (Demo.textOf Demo.tsCfg (implsSchema ["User"]) [] implsQuery).isSome = true := by decide +kernel
  have h2 : (Demo.textOf Demo.tsCfg (implsSchema ["User", "Bot"]) [] implsQuery).isSome = true := by decide +kernel
  have h3 : Demo.textOf Demo.tsCfg (implsSchema ["User"]) [] implsQuery ≠
      Demo.textOf Demo.tsCfg (implsSchema ["User", "Bot"]) [] implsQuery := by decide +kernel
  obtain ⟨t, ht⟩ := Option.isSome_iff_exists.1 h1
  obtain ⟨t', ht'⟩ := Option.isSome_iff_exists.1 h2
  exact ⟨t, t', validDocB_sound (by decide +kernel), validDocB_sound (by decide +kernel), ht, ht',
    fun e => h3 (by rw [ht, ht', e])⟩

/-- The schema did change. -/
example : growsB Demo.grownJson Demo.respJson = false := by decide +kernel

end Qlc
