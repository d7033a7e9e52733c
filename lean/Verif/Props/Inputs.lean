import Verif.Lemmas.InputsCheck
import Verif.Props.Grammar
/-
C78 and C79: the globals file read as a TypeScript module, and the input values it describes.
-/
set_option autoImplicit false

namespace Qlc
open Spec

variable {doc : JSchema} {schema : Schema} {cfg : TsConfig}

/-- **C78.** The text of the globals file is a TypeScript module.  It has one statement for every type that
must be global, in the order of their names, and each declares its enum or input object as the introspection
document describes it. -/
theorem C78_globals_are_a_module (ω : Hash) (fuel : Nat) (used : List String)
    (hs : Schema.ofJson doc = .ok schema) (hv : ValidInputs doc) (hw : GlobalsWritable cfg doc)
    (text : String) (h : compileGlobals ω fuel cfg schema used = some (.ok text)) :
    ∃ names m, parseModule text = some m ∧ names.Pairwise (fun a b => a < b) ∧
      (∀ n, n ∈ names ↔ GlobalName schema used n) ∧ List.Forall₂ (GlobalStmt cfg doc) names m := by
  obtain ⟨names, decls, h1, h2, h3, rfl⟩ := C30_globals_text ω fuel cfg schema used
    (ofJson_namedAsRegistered hs) text h
  obtain ⟨ss, h4, h5⟩ := reads_globals (h3.imp (fun n t hd => reads_global hs hv hw hd))
  exact ⟨names, ss, (Reads.after header_lexes h5).parse, h1, h2, h4⟩

/-! ### Meaning -/

/-- Values may be exchanged under the modifiers of a type. -/
theorem admits_imp {b b' : JVal → Prop} (h : ∀ v, v ≠ .null → b v → b' v) :
    ∀ (t : VarTy) (v : JVal), Admits b t v → Admits b' t v
  | .named _, v, hv => by
    rcases hv with hv | hv
    · exact .inl hv
    · by_cases hn : v = .null
      · exact .inl hn
      · exact .inr (h v hn hv)
  | .list t, v, hv => by
    rcases hv with hv | ⟨vs, rfl, hx⟩
    · exact .inl hv
    · exact .inr ⟨vs, rfl, fun x hxm => admits_imp h t x (hx x hxm)⟩
  | .nonNull t, v, hv => ⟨hv.1, admits_imp h t v hv.2⟩

/-- A module with exactly the given global types. -/
structure GlobalsModule (cfg : TsConfig) (doc : JSchema) (G : String → Prop) (m : List TsStmt) : Prop where
  stmt : ∀ n, G n → ∃ s ∈ m, GlobalStmt cfg doc n s
  only : ∀ s ∈ m, ∃ n, G n ∧ GlobalStmt cfg doc n s
  closed : ∀ n, G n → kindNamed doc n = some "INPUT_OBJECT" → ∀ name k t,
    inputFieldType doc n name = some (k, t) → k = "ENUM" ∨ k = "INPUT_OBJECT" → G (baseName t)

theorem globalStmt_name {n n' : String} {s : TsStmt} (h : GlobalStmt cfg doc n s) (h' : n' ∈ s.exports) :
    n' = n := by
  rcases h with ⟨_, _, _, _, rfl⟩ | ⟨_, _, rfl, _⟩ <;> simpa [TsStmt.exports] using h'

theorem globalStmt_exports {n : String} {s : TsStmt} (h : GlobalStmt cfg doc n s) : n ∈ s.exports := by
  rcases h with ⟨_, _, _, _, rfl⟩ | ⟨_, _, rfl, _⟩ <;> simp [TsStmt.exports]

theorem GlobalsModule.exports {G : String → Prop} {m : List TsStmt} (h : GlobalsModule cfg doc G m) (n : String) :
    n ∈ m.flatMap TsStmt.exports ↔ G n := by
  rw [List.mem_flatMap]
  constructor
  · rintro ⟨s, hs, hn⟩
    obtain ⟨n', hg, hst⟩ := h.only s hs
    rw [globalStmt_name hst hn]; exact hg
  · intro hg
    obtain ⟨s, hs, hst⟩ := h.stmt n hg
    exact ⟨s, hs, globalStmt_exports hst⟩

theorem globalStmt_kind {n : String} {s : TsStmt} (h : GlobalStmt cfg doc n s) :
    kindNamed doc n = some "ENUM" ∨ kindNamed doc n = some "INPUT_OBJECT" := by
  rcases h with ⟨h, _⟩ | ⟨h, _⟩
  · exact .inl h
  · exact .inr h

theorem GlobalsModule.kind {G : String → Prop} {m : List TsStmt} (h : GlobalsModule cfg doc G m) {n : String}
    (hg : G n) : kindNamed doc n = some "ENUM" ∨ kindNamed doc n = some "INPUT_OBJECT" := by
  obtain ⟨s, _, hst⟩ := h.stmt n hg
  exact globalStmt_kind hst

theorem inputOf_leaf {scalars : String → JVal → Prop} {k : Nat} {n kind : String} {v : JVal}
    (hk : kindNamed doc n = some kind) (hl : kind ∈ ["SCALAR", "ENUM"]) :
    InputOf doc scalars k n v ↔ LeafValue doc scalars kind n v := by
  have hne : kindNamed doc n ≠ some "INPUT_OBJECT" := by
    rw [hk]
    rintro h
    injection h with h
    subst h
    simp at hl
  have hleaf : LeafOf doc scalars n v ↔ LeafValue doc scalars kind n v := by
    constructor
    · rintro ⟨kind', _, h1, h2⟩
      rw [hk] at h1
      injection h1 with h1
      subst h1
      exact h2
    · intro h
      exact ⟨kind, hl, hk, h⟩
  cases k with
  | zero => rw [InputOf, hleaf]; simp [hne]
  | succ k => rw [InputOf, hleaf]; simp [hne]

theorem inputOf_enum {scalars : String → JVal → Prop} {k : Nat} {n : String} {v : JVal}
    (hk : kindNamed doc n = some "ENUM") : InputOf doc scalars k n v ↔ ∃ s ∈ enumValuesOf doc n, v = .str s := by
  rw [inputOf_leaf hk (by simp)]
  simp only [LeafValue, if_true]
  unfold enumValuesOf
  constructor
  · rintro ⟨j, vs, s, h1, h2, h3, h4⟩
    exact ⟨s, by simp [h1, h2, h3], h4⟩
  · rintro ⟨s, h1, h2⟩
    cases hj : typeNamed doc n with
    | none => rw [hj] at h1; simp at h1
    | some j =>
      cases hvs : j.enumValues with
      | none => rw [hj] at h1; simp [hvs] at h1
      | some vs => exact ⟨j, vs, s, rfl, hvs, by simpa [hj, hvs] using h1, h2⟩

theorem inputOf_scalar {scalars : String → JVal → Prop} {k : Nat} {n : String} {v : JVal}
    (hk : kindNamed doc n = some "SCALAR") :
    InputOf doc scalars k n v ↔ LeafValue doc scalars "SCALAR" n v := inputOf_leaf hk (by simp)

theorem leafOf_object {scalars : String → JVal → Prop} {n : String} {v : JVal}
    (hk : kindNamed doc n = some "INPUT_OBJECT") : ¬ LeafOf doc scalars n v := by
  rintro ⟨kind, h1, h2, _⟩
  rw [hk] at h2
  injection h2 with h2
  subst h2
  simp at h1

theorem inputOf_object {scalars : String → JVal → Prop} {k : Nat} {n : String} {v : JVal}
    (hk : kindNamed doc n = some "INPUT_OBJECT") :
    InputOf doc scalars (k + 1) n v ↔ ∃ fs : List (String × JVal), v = .obj fs ∧ (fs.map Prod.fst).Nodup ∧
          (∀ key ∈ fs.map Prod.fst, key ∈ (inputFields doc n).map JField.name) ∧
          ∀ name ∈ (inputFields doc n).map JField.name, ∃ kind t, inputFieldType doc n name = some (kind, t) ∧
            ((∃ x, (name, x) ∈ fs ∧ Admits (InputOf doc scalars k (baseName t)) t x) ∨
             (isNullable t = true ∧ name ∉ fs.map Prod.fst)) := by
  rw [InputOf]
  constructor
  · rintro (h | ⟨_, h⟩)
    · exact absurd h (leafOf_object hk)
    · exact h
  · exact fun h => .inr ⟨hk, h⟩

theorem inputFieldType_kind (hv : ValidInputs doc) {P name k : String} {t : VarTy}
    (h : inputFieldType doc P name = some (k, t)) :
    kindNamed doc (baseName t) = some k ∧ (k = "SCALAR" ∨ k = "ENUM" ∨ k = "INPUT_OBJECT") := by
  unfold inputFieldType at h
  cases hl : lastNamed JField.name name (inputFields doc P) with
  | none => rw [hl] at h; simp at h
  | some j =>
    rw [hl] at h
    obtain ⟨k', t', h1, _, h3, h4⟩ := hv P j (lastNamed_name hl).1
    simp only [Option.bind_some, h1, Option.some.injEq, Prod.mk.injEq] at h
    obtain ⟨rfl, rfl⟩ := h
    exact ⟨h4, by simpa using h3⟩

section Meaning

variable {G : String → Prop} {m : List TsStmt} {scalars env : String → JVal → Prop}

/-- What names mean inside the globals module. -/
private def sc (m : List TsStmt) (env : String → JVal → Prop) (k : Nat) (n : String) (v : JVal) : Prop :=
  if n ∈ m.flatMap TsStmt.exports then ModuleAdmits m env k n v else env n v

/-- What a server takes is admitted by the module. -/
theorem module_of_input (hv : ValidInputs doc) (ho : OneListLevel doc) (hsa : ScalarsApart cfg doc)
    (hm : GlobalsModule cfg doc G m)
    (henv : ∀ n v, kindNamed doc n = some "SCALAR" → LeafValue doc scalars "SCALAR" n v →
      env (scalarSpelling cfg n) v) :
    ∀ k n v, G n → InputOf doc scalars k n v → ModuleAdmits m env k n v := by
  intro k
  induction k with
  | zero => intros; trivial
  | succ k ih =>
    intro n v hg hi
    obtain ⟨s, hsm, hst⟩ := hm.stmt n hg
    rcases hst with ⟨hk, vs, hp, _, rfl⟩ | ⟨hk, ms, rfl, _, hnames, hms⟩
    · obtain ⟨x, hx, rfl⟩ := (inputOf_enum hk).1 hi
      exact .inl ⟨_, hsm, (x, x), List.mem_map.2 ⟨x, hp.mem_iff.2 hx, rfl⟩, rfl⟩
    · obtain ⟨fs, rfl, h1, h2, h3⟩ := (inputOf_object hk).1 hi
      refine .inr ⟨_, hsm, fs, rfl, h1, fun key hkey => (hnames key).2 (h2 key hkey), ?_⟩
      intro p hp
      obtain ⟨kind, t, h4, _, h6, h7⟩ := hms p hp
      obtain ⟨kind', t', h4', h8⟩ := h3 p.name ((hnames _).1 (List.mem_map.2 ⟨p, hp, rfl⟩))
      rw [h4] at h4'
      simp only [Option.some.injEq, Prod.mk.injEq] at h4'
      obtain ⟨rfl, rfl⟩ := h4'
      obtain ⟨h9, h10⟩ := h7 (ho _ _ _ _ h4)
      obtain ⟨hbk, hcase⟩ := inputFieldType_kind hv h4
      rcases h8 with ⟨x, hx, hax⟩ | ⟨hnull, habs⟩
      · left
        refine ⟨x, hx, ?_⟩
        show TsAdmits (sc m env k) p.type x
        have hbase : ∀ y, InputOf doc scalars k (baseName t) y →
            sc m env k (inputSpelling cfg doc (baseName t)) y := by
          intro y hy
          unfold sc
          rcases hcase with rfl | hke
          · rw [show inputSpelling cfg doc (baseName t) = scalarSpelling cfg (baseName t) from if_pos hbk]
            rw [if_neg]
            · exact henv _ _ hbk ((inputOf_scalar hbk).1 hy)
            · rw [hm.exports]
              intro hg'
              rcases hm.kind hg' with h | h
              · exact (hsa _ hbk).1 h
              · exact (hsa _ hbk).2.1 h
          · have hne : kindNamed doc (baseName t) ≠ some "SCALAR" := by
              rw [hbk]; rcases hke with rfl | rfl <;> simp
            rw [show inputSpelling cfg doc (baseName t) = baseName t from if_neg hne]
            have hgb := hm.closed n hg hk p.name kind t h4 hke
            rw [if_pos ((hm.exports _).2 hgb)]
            exact ih _ _ hgb hy
        have hx' := (h10 (fun a y => sc m env k a y ∧ y ≠ .null) (fun h => h.2 rfl) x).2
          (admits_imp (fun y hy hb => ⟨hbase y hb, hy⟩) t x hax)
        exact tsAdmits_refs _ _ (fun _ _ _ h => h.1) hx'
      · exact .inr ⟨by rw [h9]; exact hnull, habs⟩

theorem moduleAdmits_notNull (hm : GlobalsModule cfg doc G m) {k : Nat} {n : String} :
    ¬ ModuleAdmits m env (k + 1) n .null := by
  rintro (⟨ms, _, e, _, h⟩ | ⟨body, hb, h⟩)
  · simp at h
  · obtain ⟨n', _, hst⟩ := hm.only _ hb
    rcases hst with ⟨_, _, _, _, h'⟩ | ⟨_, ms, h', _⟩
    · simp at h'
    · simp only [TsStmt.typeAlias.injEq] at h'
      obtain ⟨rfl, rfl⟩ := h'
      obtain ⟨fs, h, _⟩ := h
      simp at h

/-- What the module admits, a server takes. -/
theorem input_of_module (hv : ValidInputs doc) (ho : OneListLevel doc) (hsa : ScalarsApart cfg doc)
    (hm : GlobalsModule cfg doc G m)
    (henv : ∀ n v, kindNamed doc n = some "SCALAR" → (env (scalarSpelling cfg n) v ↔
      LeafValue doc scalars "SCALAR" n v)) :
    ∀ k n v, G n → ModuleAdmits m env (k + 1) n v → InputOf doc scalars k n v := by
  intro k
  induction k with
  | zero =>
    intro n v hg hi
    rcases hm.kind hg with hk | hk
    · rw [inputOf_enum hk]
      rcases hi with ⟨ms, hms, e, he, rfl⟩ | ⟨body, hb, _⟩
      · obtain ⟨n', _, hst⟩ := hm.only _ hms
        rcases hst with ⟨_, vs, hp, _, h'⟩ | ⟨_, ms', h', _⟩
        · simp only [TsStmt.enum.injEq] at h'
          obtain ⟨rfl, rfl⟩ := h'
          obtain ⟨x, hx, rfl⟩ := List.mem_map.1 he
          exact ⟨x, hp.mem_iff.1 hx, rfl⟩
        · simp at h'
      · obtain ⟨n', _, hst⟩ := hm.only _ hb
        rcases hst with ⟨_, _, _, _, h'⟩ | ⟨hk', ms, h', _⟩
        · simp at h'
        · simp only [TsStmt.typeAlias.injEq] at h'
          rw [h'.1, hk'] at hk; simp at hk
    · exact .inl hk
  | succ k ih =>
    intro n v hg hi
    rcases hi with ⟨ms, hms, e, he, rfl⟩ | ⟨body, hb, hi⟩
    · obtain ⟨n', _, hst⟩ := hm.only _ hms
      rcases hst with ⟨hk, vs, hp, _, h'⟩ | ⟨_, ms', h', _⟩
      · simp only [TsStmt.enum.injEq] at h'
        obtain ⟨rfl, rfl⟩ := h'
        rw [inputOf_enum hk]
        obtain ⟨x, hx, rfl⟩ := List.mem_map.1 he
        exact ⟨x, hp.mem_iff.1 hx, rfl⟩
      · simp at h'
    · obtain ⟨n', _, hst⟩ := hm.only _ hb
      rcases hst with ⟨_, _, _, _, h'⟩ | ⟨hk, ms, h', _, hnames, hms⟩
      · simp at h'
      · simp only [TsStmt.typeAlias.injEq] at h'
        obtain ⟨rfl, rfl⟩ := h'
        obtain ⟨fs, rfl, h1, h2, h3⟩ := hi
        rw [inputOf_object hk]
        refine ⟨fs, rfl, h1, fun key hkey => (hnames key).1 (h2 key hkey), ?_⟩
        intro name hname
        obtain ⟨p, hp, rfl⟩ := List.mem_map.1 ((hnames name).2 hname)
        obtain ⟨kind, t, h4, _, h6, h7⟩ := hms p hp
        refine ⟨kind, t, h4, ?_⟩
        obtain ⟨h9, h10⟩ := h7 (ho _ _ _ _ h4)
        obtain ⟨hbk, hcase⟩ := inputFieldType_kind hv h4
        rcases h3 p hp with ⟨x, hx, hax⟩ | ⟨hopt, habs⟩
        · left
          refine ⟨x, hx, ?_⟩
          have hax : TsAdmits (sc m env (k + 1)) p.type x := hax
          have hbase : ¬ sc m env (k + 1) (inputSpelling cfg doc (baseName t)) .null ∧
              ∀ y, sc m env (k + 1) (inputSpelling cfg doc (baseName t)) y →
                InputOf doc scalars k (baseName t) y := by
            rcases hcase with rfl | hke
            · have hne : scalarSpelling cfg (baseName t) ∉ m.flatMap TsStmt.exports := by
                rw [hm.exports]
                intro hg'
                rcases hm.kind hg' with h | h
                · exact (hsa _ hbk).1 h
                · exact (hsa _ hbk).2.1 h
              rw [show inputSpelling cfg doc (baseName t) = scalarSpelling cfg (baseName t) from if_pos hbk]
              unfold sc
              rw [if_neg hne]
              refine ⟨?_, ?_⟩
              · rw [henv _ _ hbk]
                unfold LeafValue
                repeat' split
                all_goals simp
              · intro y hy
                rw [if_neg hne] at hy
                exact (inputOf_scalar hbk).2 ((henv _ _ hbk).1 hy)
            · have hne : kindNamed doc (baseName t) ≠ some "SCALAR" := by
                rw [hbk]; rcases hke with rfl | rfl <;> simp
              rw [show inputSpelling cfg doc (baseName t) = baseName t from if_neg hne]
              have hgb := hm.closed n hg hk p.name kind t h4 hke
              unfold sc
              rw [if_pos ((hm.exports _).2 hgb)]
              refine ⟨moduleAdmits_notNull hm, ?_⟩
              intro y hy
              rw [if_pos ((hm.exports _).2 hgb)] at hy
              exact ih _ _ hgb hy
          exact admits_imp (fun y _ hb => hbase.2 y hb) t x ((h10 _ hbase.1 x).1 hax)
        · exact .inr ⟨by rw [← h9]; exact hopt, habs⟩

end Meaning

/-! ### The generated globals are such a module -/

theorem expanded_get {used : List String} {t : SType} (h : Expanded schema used t) :
    ∃ n, schema.getType n = some t := by
  cases h with
  | used _ h => exact ⟨_, h⟩
  | sub _ h => obtain ⟨f, _, _, h⟩ := h; exact ⟨_, h⟩

theorem inputFieldOf_named (hs : Schema.ofJson doc = .ok schema) (hv : ValidInputs doc) {n : String} {t : SType}
    {f : SField} (ht : schema.getType n = some t) (hf : InputFieldOf t f) :
    ∃ k key ty, inputFieldType doc n key = some (k, ty) ∧ f.type.name = baseName ty ∧
      kindNamed doc f.type.name = some k ∧
      (f.type.definition = .enum → k = "ENUM") ∧ (f.type.definition = .inputObject ↔ k = "INPUT_OBJECT") := by
  obtain ⟨nm, fields, key, hd, hmem⟩ := hf
  obtain ⟨_, _, _, hget⟩ := loaded_input hs ht hd
  obtain ⟨j, h1, h2⟩ := hget _ _ hmem
  obtain ⟨k, ty, g1, g2, g3, g4, g5, g6, g7⟩ := input_field hv h1 h2
  refine ⟨k, key, ty, g1, g4, by rw [g4]; exact g3, ?_, ?_⟩
  · intro he
    rcases g7 with ⟨rfl, hd'⟩ | ⟨rfl, hd'⟩ | ⟨rfl, hd'⟩ <;> rw [hd'] at he <;> simp_all
  · rcases g7 with ⟨rfl, hd'⟩ | ⟨rfl, hd'⟩ | ⟨rfl, hd'⟩ <;> rw [hd'] <;> simp

theorem globals_closed (hs : Schema.ofJson doc = .ok schema) (hv : ValidInputs doc) {used : List String}
    {n : String} (hg : GlobalName schema used n) (hk : kindNamed doc n = some "INPUT_OBJECT")
    {name k : String} {t : VarTy} (hf : inputFieldType doc n name = some (k, t))
    (hke : k = "ENUM" ∨ k = "INPUT_OBJECT") : GlobalName schema used (baseName t) := by
  have hl := loaded_type hs n
  unfold kindNamed at hk
  cases hj : typeNamed doc n with
  | none => rw [hj] at hk; simp at hk
  | some j =>
    rw [hj] at hk hl
    simp only [Option.map_some, Option.some.injEq] at hk
    simp only at hl
    obtain ⟨st, hst, hd⟩ := hl
    have hdi : ∃ fm, st.definition = .inputObject j.name fm := by
      rcases typeDef_cases hd with ⟨hk', _⟩ | ⟨hk', _⟩ | ⟨hk', _⟩ | ⟨_, fm, e⟩ | ⟨hk', _⟩ | ⟨hk', _⟩
      all_goals first | exact ⟨fm, e⟩ | (rw [hk] at hk'; simp at hk')
    obtain ⟨fm, hdi⟩ := hdi
    obtain ⟨_, _, hkeys, hget⟩ := loaded_input hs hst hdi
    -- the field
    have hname : name ∈ fm.keys := by
      rw [hkeys]
      unfold inputFieldType at hf
      cases hl' : lastNamed JField.name name (inputFields doc n) with
      | none => rw [hl'] at hf; simp at hf
      | some jf =>
        obtain ⟨h1, h2⟩ := lastNamed_name hl'
        exact List.mem_map.2 ⟨jf, h1, h2⟩
    obtain ⟨⟨key, f⟩, hmem, e⟩ := List.mem_map.1 hname
    simp only at e
    subst e
    obtain ⟨jf, h1, h2⟩ := hget _ _ hmem
    obtain ⟨k', t', g1, g2, g3, g4, g5, g6, g7⟩ := input_field hv h1 h2
    rw [hf] at g1
    simp only [Option.some.injEq, Prod.mk.injEq] at g1
    obtain ⟨rfl, rfl⟩ := g1
    have hfo : InputFieldOf st f := ⟨_, fm, key, hdi, hmem⟩
    have hdef : f.type.definition = .enum ∨ f.type.definition = .inputObject := by
      rcases g7 with ⟨rfl, _⟩ | ⟨_, h⟩ | ⟨_, h⟩
      · simp at hke
      · exact .inl h
      · exact .inr h
    have hex : Expanded schema used st := by
      cases hg with
      | used hu => exact .used hu hst
      | field he hfo' hdef' =>
        refine .sub he ⟨_, hfo', ?_, hst⟩
        obtain ⟨n0, hn0⟩ := expanded_get he
        obtain ⟨k0, _, _, _, _, hk0, _, hio⟩ := inputFieldOf_named hs hv hn0 hfo'
        rw [hio]
        simp only [kindNamed, hj, Option.map_some, Option.some.injEq] at hk0
        rw [← hk0, hk]
    have := GlobalName.field hex hfo hdef
    rw [g4] at this
    exact this

theorem globalsModule_of (hs : Schema.ofJson doc = .ok schema) (hv : ValidInputs doc) {used names : List String}
    {m : List TsStmt} (h1 : ∀ n, n ∈ names ↔ GlobalName schema used n)
    (h2 : List.Forall₂ (GlobalStmt cfg doc) names m) : GlobalsModule cfg doc (GlobalName schema used) m := by
  have key : (∀ n ∈ names, ∃ s ∈ m, GlobalStmt cfg doc n s) ∧ ∀ s ∈ m, ∃ n ∈ names, GlobalStmt cfg doc n s := by
    clear h1
    induction h2 with
    | nil => simp
    | cons h _ ih =>
      rename_i a b l1 l2 _
      refine ⟨?_, ?_⟩
      · intro n hn
        rcases List.mem_cons.1 hn with rfl | hn
        · exact ⟨b, by simp, h⟩
        · obtain ⟨s, hs, h'⟩ := ih.1 n hn
          exact ⟨s, by simp [hs], h'⟩
      · intro s hs
        rcases List.mem_cons.1 hs with rfl | hs
        · exact ⟨a, by simp, h⟩
        · obtain ⟨n, hn, h'⟩ := ih.2 s hs
          exact ⟨n, by simp [hn], h'⟩
  refine ⟨fun n hn => key.1 n ((h1 n).2 hn), ?_, fun n hg hk name k t hf hke => globals_closed hs hv hg hk hf hke⟩
  intro s hsm
  obtain ⟨n, hn, h'⟩ := key.2 s hsm
  exact ⟨n, (h1 n).1 hn, h'⟩

/-- **C79.** Every value that a server takes for a global enum or input object belongs to the type that the
globals file, read as a TypeScript module, exports under that name. -/
theorem C79_inputs_inhabit_globals (ω : Hash) (fuel : Nat) (used : List String)
    (hs : Schema.ofJson doc = .ok schema) (hv : ValidInputs doc) (ho : OneListLevel doc)
    (hw : GlobalsWritable cfg doc) (hsa : ScalarsApart cfg doc)
    (scalars env : String → JVal → Prop)
    (henv : ∀ n v, kindNamed doc n = some "SCALAR" → LeafValue doc scalars "SCALAR" n v →
      env (scalarSpelling cfg n) v)
    (text : String) (h : compileGlobals ω fuel cfg schema used = some (.ok text)) :
    ∃ m, parseModule text = some m ∧ ∀ n, GlobalName schema used n → ∀ v,
      (∀ k, InputOf doc scalars k n v) → ∀ k, ModuleAdmits m env k n v := by
  obtain ⟨names, m, h1, _, h3, h4⟩ := C78_globals_are_a_module ω fuel used hs hv hw text h
  exact ⟨m, h1, fun n hn v hi k => module_of_input hv ho hsa (globalsModule_of hs hv h3 h4) henv k n v hn (hi k)⟩

/-- **C79.** The converse: if the names of the scalars admit exactly their values, the exported type admits
exactly the values that a server takes. -/
theorem C79_globals_admit_exactly (ω : Hash) (fuel : Nat) (used : List String)
    (hs : Schema.ofJson doc = .ok schema) (hv : ValidInputs doc) (ho : OneListLevel doc)
    (hw : GlobalsWritable cfg doc) (hsa : ScalarsApart cfg doc)
    (scalars env : String → JVal → Prop)
    (henv : ∀ n v, kindNamed doc n = some "SCALAR" →
      (env (scalarSpelling cfg n) v ↔ LeafValue doc scalars "SCALAR" n v))
    (text : String) (h : compileGlobals ω fuel cfg schema used = some (.ok text)) :
    ∃ m, parseModule text = some m ∧ ∀ n, GlobalName schema used n → ∀ v,
      (∀ k, ModuleAdmits m env k n v) ↔ ∀ k, InputOf doc scalars k n v := by
  obtain ⟨names, m, h1, _, h3, h4⟩ := C78_globals_are_a_module ω fuel used hs hv hw text h
  have hm := globalsModule_of hs hv h3 h4
  exact ⟨m, h1, fun n hn v => ⟨fun hi k => input_of_module hv ho hsa hm henv k n v hn (hi (k + 1)),
    fun hi k => module_of_input hv ho hsa hm (fun n v hk => (henv n v hk).2) k n v hn (hi k)⟩⟩

/-! ### C80: variables -/

variable {frags : Frags}

theorem buildVariable_facts {d : VarDef} {v : Variable} (h : buildVariable schema d = .ok v) :
    WellFormed d.type ∧ listDepth d.type ≤ 1 ∧ [v.modifier] = builderMods ModBuilder.new d.type ∧
      v.propName = d.name ∧ VariableType.ofName schema (baseName d.type) d.pos = .ok v.type := by
  have hs : SupportedVarType d.type := ((C03_variable_accepted_iff schema d).1 ⟨v, h⟩).1
  have key : ∀ (m : Mod) (n : String), unwrapVarDef d = .ok (m, n) → n = baseName d.type →
      builderMods ModBuilder.new d.type = [m] →
      WellFormed d.type ∧ listDepth d.type ≤ 1 ∧ [v.modifier] = builderMods ModBuilder.new d.type ∧
        v.propName = d.name ∧ VariableType.ofName schema (baseName d.type) d.pos = .ok v.type := by
    intro m n hu hn hb
    simp only [buildVariable, hu] at h
    cases hvt : VariableType.ofName schema n d.pos with
    | error e => simp [hvt] at h
    | ok vt =>
      simp only [hvt] at h
      injection h with h
      subst h
      exact ⟨hs.1, hs.2, hb.symm, rfl, by rw [← hn]; exact hvt⟩
  obtain ⟨pos, name, type, dflt⟩ := d
  rcases type with n | t | t
  · exact key .nullable n rfl rfl rfl
  · rcases t with n | t | t
    · exact key .nullableListOfNullable n rfl rfl rfl
    · exact absurd hs (by simp [SupportedVarType, listDepth])
    · rcases t with n | t | t
      · exact key .nullableList n rfl rfl rfl
      · exact absurd hs (by simp [SupportedVarType, listDepth])
      · exact absurd hs (by simp [SupportedVarType, WellFormed])
  · rcases t with n | t | t
    · exact key .none n rfl rfl rfl
    · rcases t with n | t | t
      · exact key .listOfNullable n rfl rfl rfl
      · exact absurd hs (by simp [SupportedVarType, listDepth])
      · rcases t with n | t | t
        · exact key .list n rfl rfl rfl
        · exact absurd hs (by simp [SupportedVarType, listDepth])
        · exact absurd hs (by simp [SupportedVarType, WellFormed])
    · exact absurd hs (by simp [SupportedVarType, WellFormed])

/-- How the type of a variable is spelled. -/
theorem varFlat_spelling (hs : Schema.ofJson doc = .ok schema) {n k : String} {pos : Pos} {vt : VariableType}
    (h : VariableType.ofName schema n pos = .ok vt) (hk : k ∈ ["SCALAR", "ENUM", "INPUT_OBJECT"])
    (hkn : kindNamed doc n = some k) (hb : n ∈ ["ID", "String", "Float", "Int", "Boolean"] → k = "SCALAR") :
    (varFlat cfg schema vt).ty = .ref (inputSpelling cfg doc n) ∧
    (k ≠ "SCALAR" → varFlat cfg schema vt = .global n) := by
  unfold VariableType.ofName at h
  have scal : ∀ a, n = a → a ∈ ["ID", "String", "Float", "Int", "Boolean"] →
      inputSpelling cfg doc n = scalarSpelling cfg a ∧ k = "SCALAR" := by
    intro a e ha
    subst e
    have hk := hb ha
    rw [hk] at hkn
    exact ⟨if_pos hkn, hk⟩
  split at h
  · rename_i e
    injection h with h; subst h
    obtain ⟨e1, e2⟩ := scal _ e (by simp)
    exact ⟨by rw [e1]; rfl, fun h => absurd e2 h⟩
  split at h
  · rename_i e
    injection h with h; subst h
    obtain ⟨e1, e2⟩ := scal _ e (by simp)
    exact ⟨by rw [e1]; rfl, fun h => absurd e2 h⟩
  split at h
  · rename_i e
    injection h with h; subst h
    obtain ⟨e1, e2⟩ := scal _ e (by simp)
    exact ⟨by rw [e1]; rfl, fun h => absurd e2 h⟩
  split at h
  · rename_i e
    injection h with h; subst h
    obtain ⟨e1, e2⟩ := scal _ e (by simp)
    exact ⟨by rw [e1]; rfl, fun h => absurd e2 h⟩
  split at h
  · rename_i e
    injection h with h; subst h
    obtain ⟨e1, e2⟩ := scal _ e (by simp)
    exact ⟨by rw [e1]; rfl, fun h => absurd e2 h⟩
  rename_i n1 n2 n3 n4 n5
  split at h
  · simp at h
  · rename_i st hst
    injection h with h; subst h
    have ht := loaded_full hs hst
    obtain ⟨j, hj, _, hd⟩ := ht
    have hkj : j.kind = k := by simpa [kindNamed, hj] using hkn
    simp only [List.mem_cons, List.not_mem_nil, or_false] at hk
    unfold varFlat
    simp only [hst, Option.map_some]
    rcases typeDef_cases hd with ⟨hk', _⟩ | ⟨hk', _⟩ | ⟨hk', _⟩ | ⟨hk', m, e⟩ | ⟨hk', vs, _, e⟩ | ⟨hk', e⟩
    · rw [hkj] at hk'; subst hk'; simp at hk
    · rw [hkj] at hk'; subst hk'; simp at hk
    · rw [hkj] at hk'; subst hk'; simp at hk
    · rw [e]
      rw [hkj] at hk'; subst hk'
      refine ⟨?_, fun _ => rfl⟩
      rw [show inputSpelling cfg doc n = n from if_neg (by rw [hkn]; simp)]
      rfl
    · rw [e]
      rw [hkj] at hk'; subst hk'
      refine ⟨?_, fun _ => rfl⟩
      rw [show inputSpelling cfg doc n = n from if_neg (by rw [hkn]; simp)]
      rfl
    · rw [e]
      rw [hkj] at hk'; subst hk'
      refine ⟨?_, fun h => absurd rfl h⟩
      rw [show inputSpelling cfg doc n = scalarSpelling cfg n from if_pos hkn]
      simp only [scalarFlat, scalarSpelling, n1, n2, n3, n4, n5, if_false, or_self]
      cases cfg.bottomTypeConfig <;> rfl

theorem variables_built : ∀ (ds : List VarDef) (us : List Variable), ds.map (buildVariable schema) = us.map .ok →
    (∀ u ∈ us, ∃ d ∈ ds, buildVariable schema d = .ok u) ∧ ∀ d ∈ ds, ∃ u ∈ us, buildVariable schema d = .ok u
  | [], [], _ => by simp
  | [], _ :: _, h => by simp at h
  | _ :: _, [], h => by simp at h
  | d :: ds, u :: us, h => by
    simp only [List.map_cons, List.cons.injEq] at h
    obtain ⟨h1, h2⟩ := variables_built ds us h.2
    constructor
    · intro x hx
      rcases List.mem_cons.1 hx with rfl | hx
      · exact ⟨d, by simp, h.1⟩
      · obtain ⟨d', hd', e⟩ := h1 x hx; exact ⟨d', by simp [hd'], e⟩
    · intro x hx
      rcases List.mem_cons.1 hx with rfl | hx
      · exact ⟨u, by simp, h.1⟩
      · obtain ⟨d', hd', e⟩ := h2 x hx; exact ⟨d', by simp [hd'], e⟩

theorem variables_facts (hcon : Consistent schema) {ω : Hash} {fuel : Nat} {showDep : Bool} {d : Definition}
    {op : Operation} {ws : List Warning}
    (h : Operation.compile ω fuel ⟨schema, showDep, frags⟩ d = some (.ok op, ws)) (hne : varsOf d ≠ []) :
    ∃ us, op.variables = some us ∧ (∀ u ∈ us, ∃ x ∈ varsOf d, buildVariable schema x = .ok u) ∧
      ∀ x ∈ varsOf d, ∃ u ∈ us, buildVariable schema x = .ok u := by
  obtain ⟨_, _, h3⟩ := finish_ok (compiled_finish hcon h)
  cases ho : op.variables with
  | none =>
    rw [ho] at h3
    exact absurd ((variables_none_iff h3).1 rfl) hne
  | some us =>
    rw [ho] at h3
    refine ⟨us, rfl, ?_⟩
    unfold tryBuildVariableIr at h3
    split at h3
    · simp at h3
    · split at h3
      · simp at h3
      · rename_i vs hv
        injection h3 with h3
        injection h3 with h3
        subst h3
        exact variables_built _ _ ((seqE_ok_iff _ _).1 hv)

/-- The variables type of the file, as a member list. -/
theorem variables_members {ω : Hash} {op : Operation} {us : List Variable} (ho : op.variables = some us)
    (hap : Apart (tsFile ω cfg schema op)) {ro : Bool} {env : String → JVal → Prop} {k : Nat} {v : JVal} :
    ModuleAdmits ((tsFile ω cfg schema op).stmts ro) env (k + 1) (op.name ++ "Variables") v ↔
      MembersAdmit (fun p x => TsAdmits (fun n' v' =>
        if n' ∈ (tsFile ω cfg schema op).declared then
          ModuleAdmits ((tsFile ω cfg schema op).stmts ro) env k n' v' else env n' v') p.type x)
        (((sortedVars ω cfg schema us).map (tsVar cfg schema)).map TsVar.member) v := by
  have hvars : (tsFile ω cfg schema op).vars =
      some (op.name ++ "Variables", (sortedVars ω cfg schema us).map (tsVar cfg schema)) := by
    show op.variables.map _ = _
    rw [ho]; rfl
  have hsc : (fun n' v' => if n' ∈ ((tsFile ω cfg schema op).stmts ro).flatMap TsStmt.exports then
        ModuleAdmits ((tsFile ω cfg schema op).stmts ro) env k n' v' else env n' v') =
      (fun n' v' => if n' ∈ (tsFile ω cfg schema op).declared then
        ModuleAdmits ((tsFile ω cfg schema op).stmts ro) env k n' v' else env n' v') := by
    funext n' v'
    simp only [mem_exports]
  constructor
  · rintro (⟨ms, hm, _⟩ | ⟨body, hb, hv⟩)
    · exact absurd hm mem_stmts_enum
    · rw [← hsc]
      rcases mem_stmts_alias.1 hb with ⟨dd, hd, e⟩ | ⟨vs, hv', rfl⟩
      · exfalso
        refine hap.vars _ _ hvars (List.mem_map.2 ⟨dd, hd, ?_⟩)
        cases dd <;> (simp only [TsDecl.stmt, TsStmt.typeAlias.injEq] at e; exact e.1)
      · rw [hvars] at hv'
        simp only [Option.some.injEq, Prod.mk.injEq, true_and] at hv'
        subst hv'
        exact hv
  · intro hv
    rw [← hsc] at hv
    exact .inr ⟨_, mem_stmts_alias.2 (.inr ⟨_, hvars, rfl⟩), hv⟩

theorem declared_generated {ω : Hash} {op : Operation} {n : String} (hn : n ∈ (tsFile ω cfg schema op).declared) :
    Generated op.name n ∨ n = op.name ++ "Variables" := by
  unfold TsFile.declared at hn
  rcases List.mem_append.1 hn with hn | hn
  · obtain ⟨d, hd, rfl⟩ := List.mem_map.1 hn
    exact .inl (generated_of_extends (coll_extends cfg _ op.collection (Nat.le_refl _) op.name d hd))
  · right
    cases ho : op.variables with
    | none => simp [tsFile, ho] at hn
    | some vs => simpa [tsFile, ho] using hn

theorem tsVar_optional (v : Variable) : (tsVar cfg schema v).optional = modOptional v.modifier := by
  unfold tsVar modOptional
  cases v.modifier <;> rfl

/-- The values of the variables type, for any meaning of the names from elsewhere. -/
theorem variables_iff {ω : Hash} {op : Operation} {us : List Variable} {ds : List VarDef} (ho : op.variables = some us)
    (hs : Schema.ofJson doc = .ok schema)
    (hap : Apart (tsFile ω cfg schema op)) (hvv : ValidVars doc ds)
    (h1 : ∀ u ∈ us, ∃ x ∈ ds, buildVariable schema x = .ok u)
    (h2 : ∀ x ∈ ds, ∃ u ∈ us, buildVariable schema x = .ok u)
    (hout : ∀ x ∈ ds, ¬ Generated op.name (inputSpelling cfg doc (baseName x.type)) ∧
      inputSpelling cfg doc (baseName x.type) ≠ op.name ++ "Variables")
    {ro : Bool} {env : String → JVal → Prop} {k : Nat} {v : JVal} {B : String → JVal → Prop} :
    ((∀ x ∈ ds, ∀ y, B (baseName x.type) y → env (inputSpelling cfg doc (baseName x.type)) y) →
      (∃ fs : List (String × JVal), v = .obj fs ∧ (fs.map Prod.fst).Nodup ∧
        (∀ key ∈ fs.map Prod.fst, key ∈ ds.map VarDef.name) ∧
        ∀ d ∈ ds, (∃ x, (d.name, x) ∈ fs ∧ Admits (B (baseName d.type)) d.type x) ∨
          (isNullable d.type = true ∧ d.name ∉ fs.map Prod.fst)) →
      ModuleAdmits ((tsFile ω cfg schema op).stmts ro) env (k + 1) (op.name ++ "Variables") v) ∧
    ((∀ x ∈ ds, ¬ env (inputSpelling cfg doc (baseName x.type)) .null ∧
        ∀ y, env (inputSpelling cfg doc (baseName x.type)) y → B (baseName x.type) y) →
      ModuleAdmits ((tsFile ω cfg schema op).stmts ro) env (k + 1) (op.name ++ "Variables") v →
      ∃ fs : List (String × JVal), v = .obj fs ∧ (fs.map Prod.fst).Nodup ∧
        (∀ key ∈ fs.map Prod.fst, key ∈ ds.map VarDef.name) ∧
        ∀ d ∈ ds, (∃ x, (d.name, x) ∈ fs ∧ Admits (B (baseName d.type)) d.type x) ∨
          (isNullable d.type = true ∧ d.name ∉ fs.map Prod.fst)) := by
  have hmem : ∀ u, u ∈ sortedVars ω cfg schema us ↔ u ∈ us := fun u => (sortedVars_perm ω cfg schema us).mem_iff
  have hfacts : ∀ x ∈ ds, ∀ u, buildVariable schema x = .ok u →
      (tsVar cfg schema u).member.name = x.name ∧ (tsVar cfg schema u).member.optional = isNullable x.type ∧
      (tsVar cfg schema u).member.type = wrapMod u.modifier (.ref (inputSpelling cfg doc (baseName x.type))) ∧
      (∀ (env : String → JVal → Prop) (flat : String), ¬ env flat .null →
        ∀ v, TsAdmits env (wrapMod u.modifier (.ref flat)) v ↔ Admits (env flat) x.type v) ∧
      inputSpelling cfg doc (baseName x.type) ∉ (tsFile ω cfg schema op).declared := by
    intro x hx u hu
    obtain ⟨g1, g2, g3, g4, g5⟩ := buildVariable_facts hu
    obtain ⟨kk, hkk, hkn, hbb⟩ := hvv x hx
    obtain ⟨s1, s2⟩ := single_exact g1 g2 g3
    obtain ⟨f1, _⟩ := varFlat_spelling (cfg := cfg) hs g5 hkk hkn hbb
    refine ⟨g4, ?_, ?_, s2, ?_⟩
    · show (tsVar cfg schema u).optional = _
      rw [tsVar_optional, s1]
    · show wrapMod u.modifier (varFlat cfg schema u.type).ty = _
      rw [f1]
    · intro hd
      rcases declared_generated hd with h | h
      · exact (hout x hx).1 h
      · exact (hout x hx).2 h
  constructor
  · rintro hB ⟨fs, rfl, n1, n2, n3⟩
    rw [variables_members ho hap]
    refine ⟨fs, rfl, n1, ?_, ?_⟩
    · intro key hkey
      obtain ⟨x, hx, rfl⟩ := List.mem_map.1 (n2 key hkey)
      obtain ⟨u, hu, e⟩ := h2 x hx
      rw [List.map_map, List.map_map]
      exact List.mem_map.2 ⟨u, (hmem u).2 hu, (hfacts x hx u e).1⟩
    · intro m hm
      rw [List.map_map] at hm
      obtain ⟨u, hu, rfl⟩ := List.mem_map.1 hm
      obtain ⟨x, hx, e⟩ := h1 u ((hmem u).1 hu)
      obtain ⟨f1, f2, f3, f4, f5⟩ := hfacts x hx u e
      show (∃ y, ((tsVar cfg schema u).member.name, y) ∈ fs ∧ TsAdmits _ (tsVar cfg schema u).member.type y) ∨
        ((tsVar cfg schema u).member.optional = true ∧ (tsVar cfg schema u).member.name ∉ fs.map Prod.fst)
      rw [f1, f2, f3]
      rcases n3 x hx with ⟨y, hy, hay⟩ | habs
      · left
        refine ⟨y, hy, ?_⟩
        have := (f4 (fun n z => env n z ∧ z ≠ .null) _ (fun h => h.2 rfl) y).2
          (admits_imp (fun z hz hb => ⟨hB x hx z hb, hz⟩) x.type y hay)
        refine tsAdmits_refs _ _ ?_ this
        intro n hn z hz
        rw [refs_wrapMod] at hn
        simp only [TsTy.refs, List.mem_singleton] at hn
        subst hn
        show if _ then _ else _
        rw [if_neg f5]
        exact hz.1
      · exact .inr habs
  · intro hB hv
    rw [variables_members ho hap] at hv
    obtain ⟨fs, rfl, n1, n2, n3⟩ := hv
    refine ⟨fs, rfl, n1, ?_, ?_⟩
    · intro key hkey
      have := n2 key hkey
      rw [List.map_map, List.map_map] at this
      obtain ⟨u, hu, rfl⟩ := List.mem_map.1 this
      obtain ⟨x, hx, e⟩ := h1 u ((hmem u).1 hu)
      exact List.mem_map.2 ⟨x, hx, (hfacts x hx u e).1.symm⟩
    · intro x hx
      obtain ⟨u, hu, e⟩ := h2 x hx
      obtain ⟨f1, f2, f3, f4, f5⟩ := hfacts x hx u e
      have := n3 ((tsVar cfg schema u).member) (by
        rw [List.map_map]; exact List.mem_map.2 ⟨u, (hmem u).2 hu, rfl⟩)
      beta_reduce at this
      rw [f1, f2, f3] at this
      rcases this with ⟨y, hy, hay⟩ | habs
      · left
        refine ⟨y, hy, ?_⟩
        have hay' : TsAdmits env (wrapMod u.modifier (.ref (inputSpelling cfg doc (baseName x.type)))) y := by
          refine tsAdmits_refs _ _ ?_ hay
          intro n hn z hz
          rw [refs_wrapMod] at hn
          simp only [TsTy.refs, List.mem_singleton] at hn
          subst hn
          change if _ then _ else _ at hz
          rw [if_neg f5] at hz
          exact hz
        exact admits_imp (fun z _ hb => (hB x hx).2 z hb) x.type y ((f4 env _ (hB x hx).1 y).1 hay')
      · exact .inr habs

/-- The configured spelling of a scalar admits its values. -/
theorem scalarEnv_leaf {scalars env : String → JVal → Prop} (he : ScalarEnv cfg doc scalars env) {n : String} {v : JVal}
    (hn : kindNamed doc n = some "SCALAR") (h : LeafValue doc scalars "SCALAR" n v) : env (scalarSpelling cfg n) v := by
  unfold LeafValue at h
  rw [if_neg (by decide)] at h
  unfold scalarSpelling
  split at h
  · rename_i e
    obtain ⟨s, rfl⟩ := h
    rcases e with rfl | rfl
    · exact he.number s
    · exact he.number s
  · rename_i e1
    split at h
    · rename_i e
      obtain ⟨s, rfl⟩ := h
      rcases e with rfl | rfl
      · exact he.string s
      · exact he.string s
    · rename_i e2
      split at h
      · rename_i e3
        obtain ⟨b, rfl⟩ := h
        subst e3
        exact he.boolean b
      · rename_i e3
        have := he.custom n v hn h.1
        simp only [not_or] at e1 e2
        simp only [e1.1, e1.2, e2.1, e2.2, e3, if_false, or_self]
        cases hb : cfg.bottomTypeConfig with
        | defaultBottomType => exact he.any v
        | realName => rw [hb] at this; exact this
        | realNameWithPrefix p => rw [hb] at this; exact this

/-- What a name stands for in a file that imports the globals module. -/
theorem linked_of_input (hv : ValidInputs doc) (ho : OneListLevel doc) (hsa : ScalarsApart cfg doc)
    {scalars env : String → JVal → Prop} {G : String → Prop} {g : List TsStmt} (hm : GlobalsModule cfg doc G g)
    (henv : ∀ n v, kindNamed doc n = some "SCALAR" → LeafValue doc scalars "SCALAR" n v →
      env (scalarSpelling cfg n) v) {n k : String} (hk : k ∈ ["SCALAR", "ENUM", "INPUT_OBJECT"])
    (hkn : kindNamed doc n = some k) (hg : k ≠ "SCALAR" → G n) {y : JVal}
    (h : ∀ k, InputOf doc scalars k n y) : linked g env (inputSpelling cfg doc n) y := by
  unfold linked inputSpelling
  by_cases e : kindNamed doc n = some "SCALAR"
  · rw [if_pos e, if_neg]
    · exact henv n y e ((inputOf_scalar e).1 (h 0))
    · rw [hm.exports]
      intro hG
      rcases hm.kind hG with h | h
      · exact (hsa n e).1 h
      · exact (hsa n e).2.1 h
  · have hG : G n := hg (by rintro rfl; exact e hkn)
    rw [if_neg e, if_pos ((hm.exports n).2 hG)]
    exact fun j => module_of_input hv ho hsa hm henv j n y hG (h j)

theorem input_of_linked (hv : ValidInputs doc) (ho : OneListLevel doc) (hsa : ScalarsApart cfg doc)
    {scalars env : String → JVal → Prop} {G : String → Prop} {g : List TsStmt} (hm : GlobalsModule cfg doc G g)
    (henv : ∀ n v, kindNamed doc n = some "SCALAR" → (env (scalarSpelling cfg n) v ↔
      LeafValue doc scalars "SCALAR" n v)) {n k : String} (hk : k ∈ ["SCALAR", "ENUM", "INPUT_OBJECT"])
    (hkn : kindNamed doc n = some k) (hg : k ≠ "SCALAR" → G n) :
    ¬ linked g env (inputSpelling cfg doc n) .null ∧
      ∀ y, linked g env (inputSpelling cfg doc n) y → ∀ k, InputOf doc scalars k n y := by
  unfold linked inputSpelling
  by_cases e : kindNamed doc n = some "SCALAR"
  · have hnot : scalarSpelling cfg n ∉ g.flatMap TsStmt.exports := by
      rw [hm.exports]
      intro hG
      rcases hm.kind hG with h | h
      · exact (hsa n e).1 h
      · exact (hsa n e).2.1 h
    simp only [if_pos e, if_neg hnot]
    · refine ⟨?_, fun y hy k => (inputOf_scalar e).2 ((henv n y e).1 hy)⟩
      rw [henv n _ e]
      unfold LeafValue
      rw [if_neg (by decide)]
      split
      · simp
      · split
        · simp
        · split
          · simp
          · simp
  · have hG : G n := hg (by rintro rfl; exact e hkn)
    rw [if_neg e]
    simp only [if_pos ((hm.exports n).2 hG)]
    exact ⟨fun h => moduleAdmits_notNull hm (h 1),
      fun y hy k => input_of_module hv ho hsa hm henv k n y hG (hy (k + 1))⟩

/-- What is written about variables follows from what the schema and the operation say. -/
theorem varsWritable_of (hs : Schema.ofJson doc = .ok schema) (hgw : GlobalsWritable cfg doc) {ds : List VarDef}
    (hvv : ValidVars doc ds) (hn : ∀ x ∈ ds, IsGqlName x.name) {us : List Variable}
    (h1 : ∀ u ∈ us, ∃ x ∈ ds, buildVariable schema x = .ok u) : VarsWritable schema us := by
  intro u hu
  obtain ⟨x, hx, e⟩ := h1 u hu
  obtain ⟨_, _, _, g4, g5⟩ := buildVariable_facts e
  refine ⟨by rw [g4]; exact hn x hx, ?_⟩
  intro n hun hns
  obtain ⟨k, hk, hkn, hb⟩ := hvv x hx
  rw [hun] at g5
  have hcase : n = baseName x.type ∧ ∃ st, schema.getType n = some st := by
    unfold VariableType.ofName at g5
    split at g5
    · simp at g5
    split at g5
    · simp at g5
    split at g5
    · simp at g5
    split at g5
    · simp at g5
    split at g5
    · simp at g5
    split at g5
    · simp at g5
    · rename_i st hst
      simp only [Except.ok.injEq, VariableType.custom.injEq] at g5
      exact ⟨g5.symm, st, by rw [← g5]; exact hst⟩
  obtain ⟨rfl, st, hst⟩ := hcase
  simp only [List.mem_cons, List.not_mem_nil, or_false] at hk
  rcases hk with rfl | rfl | rfl
  · obtain ⟨j, hj, _, hd⟩ := loaded_full hs hst
    have hkj : j.kind = "SCALAR" := by simpa [kindNamed, hj] using hkn
    exfalso
    rcases typeDef_cases hd with ⟨hk', _⟩ | ⟨hk', _⟩ | ⟨hk', _⟩ | ⟨hk', m, e⟩ | ⟨hk', vs, _, e⟩ | ⟨hk', e⟩
    · rw [hkj] at hk'; simp at hk'
    · rw [hkj] at hk'; simp at hk'
    · rw [hkj] at hk'; simp at hk'
    · rw [hkj] at hk'; simp at hk'
    · rw [hkj] at hk'; simp at hk'
    · exact hns st _ hst e
  · exact (hgw.enums _ hkn).1
  · exact hgw.inputs _ hkn

/-- The enums and input objects of variables are among the global types that are reported. -/
theorem variable_used {ω : Hash} {op : Operation} {us : List Variable} {c : Compile}
    (hs : Schema.ofJson doc = .ok schema) (hc : compileIr ω op cfg schema = .ok c) (ho : op.variables = some us)
    {x : VarDef} {u : Variable} (hu : u ∈ us) (e : buildVariable schema x = .ok u) {k : String}
    (hk : k ∈ ["SCALAR", "ENUM", "INPUT_OBJECT"]) (hkn : kindNamed doc (baseName x.type) = some k)
    (hb : baseName x.type ∈ ["ID", "String", "Float", "Int", "Boolean"] → k = "SCALAR") (hks : k ≠ "SCALAR") :
    baseName x.type ∈ c.globalTypesUsed := by
  obtain ⟨_, _, _, _, g5⟩ := buildVariable_facts e
  rw [(compileIr_agrees hc).2.1.mem_iff, mem_globals]
  right
  rw [ho, Option.getD_some, mem_varGlobals (ω := ω)]
  exact ⟨tsVar cfg schema u, List.mem_map.2 ⟨u, (sortedVars_perm ω cfg schema us).mem_iff.2 hu, rfl⟩,
    (varFlat_spelling hs g5 hk hkn hb).2 hks⟩

theorem spelling_apart {main : String} {ds : List VarDef} (hvv : ValidVars doc ds)
    (hout : ∀ n, Outside cfg doc n ∨ kindNamed doc n = some "INPUT_OBJECT" →
      ¬ Generated main n ∧ n ≠ main ++ "Variables") :
    ∀ x ∈ ds, ¬ Generated main (inputSpelling cfg doc (baseName x.type)) ∧
      inputSpelling cfg doc (baseName x.type) ≠ main ++ "Variables" := by
  intro x hx
  obtain ⟨k, hk, hkn, hb⟩ := hvv x hx
  apply hout
  unfold inputSpelling
  simp only [List.mem_cons, List.not_mem_nil, or_false] at hk
  rcases hk with rfl | rfl | rfl
  · rw [if_pos hkn]
    left
    unfold scalarSpelling Outside
    split
    · simp
    split
    · simp
    split
    · simp
    cases hb : cfg.bottomTypeConfig with
    | defaultBottomType => simp
    | realName => exact .inr (.inr ⟨_, hkn, rfl⟩)
    | realNameWithPrefix p => exact .inr (.inr ⟨_, hkn, rfl⟩)
  · rw [if_neg (by rw [hkn]; simp)]
    exact .inl (.inr (.inl hkn))
  · rw [if_neg (by rw [hkn]; simp)]
    exact .inr hkn

/-- **C80.** The variables type of the text written for an operation, read as TypeScript together with the
globals text that it imports, admits every value of the variables that a server takes. -/
theorem C80_variables_inhabit_text (ω ω' : Hash) (fuel fuel' : Nat) (showDep : Bool) (cfg : TsConfig)
    (hv : ValidDoc doc) (hvi : ValidInputs doc) (hol : OneListLevel doc) (hs : Schema.ofJson doc = .ok schema)
    (hw : Writable cfg doc) (hgw : GlobalsWritable cfg doc) (hsa : ScalarsApart cfg doc)
    (d : Definition) (op : Operation) (ws : List Warning) (P : String) (hP : rootType d = some P)
    (h : Operation.compile ω fuel ⟨schema, showDep, frags⟩ d = some (.ok op, ws))
    (hmain : IsBinding op.name)
    (hk : ∀ k ∈ fieldKeys (itemsOf d), IsGqlName k)
    (hkf : ∀ name fd, AMap.get? frags name = some fd → ∀ k ∈ fieldKeys fd.items, IsGqlName k)
    (hne : varsOf d ≠ []) (hvv : ValidVars doc (varsOf d)) (hvn : ∀ x ∈ varsOf d, IsGqlName x.name)
    (hout : ∀ n, Outside cfg doc n ∨ kindNamed doc n = some "INPUT_OBJECT" →
      ¬ Generated op.name n ∧ n ≠ op.name ++ "Variables")
    (scalars env : String → JVal → Prop) (he : ScalarEnv cfg doc scalars env)
    (c : Compile) (hc : compileIr ω op cfg schema = .ok c)
    (used : List String) (hused : ∀ n ∈ c.globalTypesUsed, n ∈ used)
    (text : String) (hg : compileGlobals ω' fuel' cfg schema used = some (.ok text)) :
    ∃ m g, parseModule c.contents = some m ∧ parseModule text = some g ∧
      ∀ v, VariablesOf doc scalars (varsOf d) v →
        ∀ k, ModuleAdmits m (linked g env) k (dataName d ++ "Variables") v := by
  have hcon := loaded_consistent hv hs
  obtain ⟨us, ho, h1, h2⟩ := variables_facts hcon h hne
  have hvs : VarsWritable schema (op.variables.getD []) := by
    rw [ho]; exact varsWritable_of hs hgw hvv hvn h1
  obtain ⟨_, _, hok, hrefs, hparse⟩ := module_of_compile
    (Q := fun fl => ¬ Generated op.name fl.text ∧ fl.text ≠ op.name ++ "Variables") hv hs hw hP h hmain hk hkf
    hvs (fun fl hfl => hout _ (.inl (outside_of_schema hfl))) hc
  have hap := apart_of_compile hc hok hrefs
  obtain ⟨d1, _, _⟩ := tsFile_doc (cfg := cfg) hcon h
  have d1 : op.name = dataName d := d1
  obtain ⟨names, g, hpg, _, g3, g4⟩ := C78_globals_are_a_module ω' fuel' used hs hvi hgw text hg
  have hm := globalsModule_of hs hvi g3 g4
  refine ⟨_, g, hparse, hpg, ?_⟩
  intro v hvo k
  rw [← d1]
  cases k with
  | zero => trivial
  | succ k =>
    refine (variables_iff ho hs hap hvv h1 h2 (spelling_apart hvv hout)
      (B := fun n y => ∀ k, InputOf doc scalars k n y)).1 ?_ hvo
    intro x hx y hy
    obtain ⟨kk, hkk, hkn, hb⟩ := hvv x hx
    obtain ⟨u, hu, e⟩ := h2 x hx
    exact linked_of_input hvi hol hsa hm (fun n v hn => scalarEnv_leaf he hn) hkk hkn
      (fun hks => .used (hused _ (variable_used hs hc ho hu e hkk hkn hb hks))) hy

/-- **C80.** The converse: if the names of the scalars admit exactly their values, the variables type admits
exactly the values of the variables that a server takes (default values apart). -/
theorem C80_variables_admit_exactly (ω ω' : Hash) (fuel fuel' : Nat) (showDep : Bool) (cfg : TsConfig)
    (hv : ValidDoc doc) (hvi : ValidInputs doc) (hol : OneListLevel doc) (hs : Schema.ofJson doc = .ok schema)
    (hw : Writable cfg doc) (hgw : GlobalsWritable cfg doc) (hsa : ScalarsApart cfg doc)
    (d : Definition) (op : Operation) (ws : List Warning) (P : String) (hP : rootType d = some P)
    (h : Operation.compile ω fuel ⟨schema, showDep, frags⟩ d = some (.ok op, ws))
    (hmain : IsBinding op.name)
    (hk : ∀ k ∈ fieldKeys (itemsOf d), IsGqlName k)
    (hkf : ∀ name fd, AMap.get? frags name = some fd → ∀ k ∈ fieldKeys fd.items, IsGqlName k)
    (hne : varsOf d ≠ []) (hvv : ValidVars doc (varsOf d)) (hvn : ∀ x ∈ varsOf d, IsGqlName x.name)
    (hout : ∀ n, Outside cfg doc n ∨ kindNamed doc n = some "INPUT_OBJECT" →
      ¬ Generated op.name n ∧ n ≠ op.name ++ "Variables")
    (scalars env : String → JVal → Prop)
    (henv : ∀ n v, kindNamed doc n = some "SCALAR" →
      (env (scalarSpelling cfg n) v ↔ LeafValue doc scalars "SCALAR" n v))
    (c : Compile) (hc : compileIr ω op cfg schema = .ok c)
    (used : List String) (hused : ∀ n ∈ c.globalTypesUsed, n ∈ used)
    (text : String) (hg : compileGlobals ω' fuel' cfg schema used = some (.ok text)) :
    ∃ m g, parseModule c.contents = some m ∧ parseModule text = some g ∧
      ∀ v, (∀ k, ModuleAdmits m (linked g env) k (dataName d ++ "Variables") v) ↔
        VariablesOf doc scalars (varsOf d) v := by
  have hcon := loaded_consistent hv hs
  obtain ⟨us, ho, h1, h2⟩ := variables_facts hcon h hne
  have hvs : VarsWritable schema (op.variables.getD []) := by
    rw [ho]; exact varsWritable_of hs hgw hvv hvn h1
  obtain ⟨_, _, hok, hrefs, hparse⟩ := module_of_compile
    (Q := fun fl => ¬ Generated op.name fl.text ∧ fl.text ≠ op.name ++ "Variables") hv hs hw hP h hmain hk hkf
    hvs (fun fl hfl => hout _ (.inl (outside_of_schema hfl))) hc
  have hap := apart_of_compile hc hok hrefs
  obtain ⟨d1, _, _⟩ := tsFile_doc (cfg := cfg) hcon h
  have d1 : op.name = dataName d := d1
  obtain ⟨names, g, hpg, _, g3, g4⟩ := C78_globals_are_a_module ω' fuel' used hs hvi hgw text hg
  have hm := globalsModule_of hs hvi g3 g4
  have hG : ∀ x ∈ varsOf d, ∀ k ∈ ["SCALAR", "ENUM", "INPUT_OBJECT"], kindNamed doc (baseName x.type) = some k →
      (baseName x.type ∈ ["ID", "String", "Float", "Int", "Boolean"] → k = "SCALAR") → k ≠ "SCALAR" →
      GlobalName schema used (baseName x.type) := by
    intro x hx k hkk hkn hb hks
    obtain ⟨u, hu, e⟩ := h2 x hx
    exact .used (hused _ (variable_used hs hc ho hu e hkk hkn hb hks))
  refine ⟨_, g, hparse, hpg, ?_⟩
  intro v
  rw [← d1]
  constructor
  · intro hall
    refine (variables_iff ho hs hap hvv h1 h2 (spelling_apart hvv hout)
      (B := fun n y => ∀ k, InputOf doc scalars k n y) (k := 0)).2 ?_ (hall 1)
    intro x hx
    obtain ⟨kk, hkk, hkn, hb⟩ := hvv x hx
    exact input_of_linked hvi hol hsa hm henv hkk hkn (hG x hx kk hkk hkn hb)
  · intro hvo k
    cases k with
    | zero => trivial
    | succ k =>
      refine (variables_iff ho hs hap hvv h1 h2 (spelling_apart hvv hout)
        (B := fun n y => ∀ k, InputOf doc scalars k n y)).1 ?_ hvo
      intro x hx y hy
      obtain ⟨kk, hkk, hkn, hb⟩ := hvv x hx
      exact linked_of_input hvi hol hsa hm (fun n v hn => (henv n v hn).2) hkk hkn (hG x hx kk hkk hkn hb) hy

/-! ### C81: responses across the two files -/

theorem moduleAdmits_env {m : List TsStmt} {env env' : String → JVal → Prop}
    (h : ∀ n body, TsStmt.typeAlias n body ∈ m → ∀ r ∈ (TsStmt.typeAlias n body).refs,
      r ∉ m.flatMap TsStmt.exports → ∀ v, env r v → env' r v) :
    ∀ k n v, ModuleAdmits m env k n v → ModuleAdmits m env' k n v := by
  intro k
  induction k with
  | zero => intros; trivial
  | succ k ih =>
    rintro n v (⟨ms, h1, h2⟩ | ⟨body, hb, hv⟩)
    · exact .inl ⟨ms, h1, h2⟩
    · refine .inr ⟨body, hb, ?_⟩
      have hsc : ∀ r ∈ (TsStmt.typeAlias n body).refs, ∀ x,
          (if r ∈ m.flatMap TsStmt.exports then ModuleAdmits m env k r x else env r x) →
          (if r ∈ m.flatMap TsStmt.exports then ModuleAdmits m env' k r x else env' r x) := by
        intro r hr x hx
        split at hx
        · rw [if_pos (by assumption)]; exact ih r x hx
        · rw [if_neg (by assumption)]; exact h n body hb r hr (by assumption) x hx
      cases body with
      | object ms =>
        obtain ⟨fs, rfl, n1, n2, n3⟩ := hv
        refine ⟨fs, rfl, n1, n2, ?_⟩
        intro p hp
        rcases n3 p hp with ⟨x, hx, hax⟩ | h'
        · refine .inl ⟨x, hx, tsAdmits_refs _ _ (fun r hr => hsc r ?_) hax⟩
          simp only [TsStmt.refs, List.mem_flatMap]
          exact ⟨p, hp, hr⟩
        · exact .inr h'
      | type t => exact tsAdmits_refs _ _ (fun r hr => hsc r hr) hv


/-- The enums that the types of a file refer to are among the global types that are reported. -/
theorem alias_enum_used {ω : Hash} {op : Operation} {c : Compile} (hs : Schema.ofJson doc = .ok schema)
    (hw : Writable cfg doc) (hsa : ScalarsApart cfg doc) (hc : compileIr ω op cfg schema = .ok c)
    (hrefs : ∀ d ∈ (tsFile ω cfg schema op).decls, RefsOk (FromSchema cfg doc) d) {ro : Bool} {n r : String}
    {body : TsBody} (hb : TsStmt.typeAlias n body ∈ (tsFile ω cfg schema op).stmts ro)
    (hr : r ∈ (TsStmt.typeAlias n body).refs) (hkr : kindNamed doc r = some "ENUM")
    (hnd : r ∉ (tsFile ω cfg schema op).declared) : r ∈ c.globalTypesUsed := by
  obtain ⟨_, hperm, hcl, _⟩ := compileIr_agrees hc
  rw [hperm.mem_iff]
  have hno : ∀ fl : Flat, FromSchema cfg doc fl → (∀ n, fl ≠ .global n) → r ∉ fl.ty.refs := by
    intro fl hfl hng hr
    cases fl with
    | builtin n =>
      simp only [Flat.ty, Flat.text, TsTy.refs, List.mem_singleton] at hr
      subst hr
      have h1 : r ∈ ["string", "number", "boolean", "any"] := hfl
      have h2 := hw.enums r hkr
      simp only [List.mem_cons, List.not_mem_nil, or_false] at h1
      rcases h1 with rfl | rfl | rfl | rfl <;> exact absurd h2 (by decide)
    | custom n =>
      simp only [Flat.ty, Flat.text, TsTy.refs, List.mem_singleton] at hr
      subst hr
      obtain ⟨s, hk, h⟩ := hfl
      cases hb : cfg.bottomTypeConfig with
      | defaultBottomType => rw [hb] at h; exact h
      | realName =>
        rw [hb] at h
        subst h
        rw [hk] at hkr
        simp at hkr
      | realNameWithPrefix p =>
        rw [hb] at h
        subst h
        exact ((hsa s hk).2.2 p hb).1 hkr
    | global n => exact absurd rfl (hng n)
    | declared n => exact hfl.elim
    | literals n => exact hfl.elim
  have hdecl : ∀ n, n ∈ (tsFile ω cfg schema op).decls.map TsDecl.name → n ∈ (tsFile ω cfg schema op).declared :=
    fun n hn => List.mem_append_left _ hn
  rcases mem_stmts_alias.1 hb with ⟨dd, hd, e⟩ | ⟨vs, hv', rfl⟩
  · cases dd with
    | object n' props =>
      simp only [TsDecl.stmt, TsStmt.typeAlias.injEq] at e
      obtain ⟨rfl, rfl⟩ := e
      simp only [TsStmt.refs, List.mem_flatMap, List.mem_map] at hr
      obtain ⟨_, ⟨p, hp, rfl⟩, hr⟩ := hr
      have hr : r ∈ p.flat.ty.refs := by
        simpa only [TsProp.member, refs_wrapMods] using hr
      rcases hrefs _ hd _ props rfl p hp with ⟨m, e⟩ | ⟨ls, e⟩ | hq
      · exfalso
        rw [e] at hr
        simp only [Flat.ty, Flat.text, TsTy.refs, List.mem_singleton] at hr
        subst hr
        refine hnd (hdecl _ (hcl.1 _ ?_))
        unfold refsIn
        rw [List.mem_flatMap]
        refine ⟨_, hd, ?_⟩
        simp only [List.mem_flatMap]
        exact ⟨p, hp, by rw [e]; simp⟩
      · exfalso
        rw [e] at hr
        rcases refs_unionFrom _ _ r hr with ⟨_, h, _⟩ | ⟨t, ht, h⟩
        · simp at h
        · obtain ⟨a, ha, rfl⟩ := List.mem_map.1 ht
          simp [TsTy.refs] at h
      · cases hfl : p.flat with
        | global m =>
          rw [hfl] at hr
          simp only [Flat.ty, Flat.text, TsTy.refs, List.mem_singleton] at hr
          subst hr
          exact mem_globals.2 (.inl (mem_enumsIn.2 ⟨_, props, hd, p, hp, hfl⟩))
        | _ => exact absurd hr (hno p.flat hq (by rw [hfl]; simp))
    | union n' alts =>
      exfalso
      have hr' : r ∈ ((tsFile ω cfg schema op).stmts ro).flatMap TsStmt.refs := List.mem_flatMap.2 ⟨_, hb, hr⟩
      simp only [TsDecl.stmt, TsStmt.typeAlias.injEq] at e
      obtain ⟨rfl, rfl⟩ := e
      simp only [TsStmt.refs] at hr
      have hra : r ∈ alts := by
        rcases refs_unionFrom _ _ r hr with ⟨_, h, _⟩ | ⟨t, ht, h⟩
        · simp at h
        · obtain ⟨a, ha, rfl⟩ := List.mem_map.1 ht
          simp only [TsTy.refs, List.mem_singleton] at h
          rw [h]; exact ha
      refine hnd (hdecl _ (hcl.1 _ ?_))
      unfold refsIn
      rw [List.mem_flatMap]
      exact ⟨_, hd, hra⟩
  · have hvv : op.variables.map (fun vs => (op.name ++ "Variables",
      (sortedVars ω cfg schema vs).map (tsVar cfg schema))) = some (n, vs) := hv'
    cases ho : op.variables with
    | none => rw [ho] at hvv; simp at hvv
    | some us =>
      rw [ho] at hvv
      simp only [Option.map_some, Option.some.injEq, Prod.mk.injEq] at hvv
      obtain ⟨_, rfl⟩ := hvv
      simp only [TsStmt.refs, List.mem_flatMap, List.mem_map] at hr
      obtain ⟨_, ⟨_, ⟨u, hu, rfl⟩, rfl⟩, hr⟩ := hr
      have hvm' : tsVar cfg schema u ∈ (sortedVars ω cfg schema us).map (tsVar cfg schema) :=
        List.mem_map.2 ⟨u, hu, rfl⟩
      have hr : r ∈ (varFlat cfg schema u.type).ty.refs := by
        have : r ∈ (wrapMod u.modifier (varFlat cfg schema u.type).ty).refs := hr
        rwa [refs_wrapMod] at this
      have hglob : ∀ m, varFlat cfg schema u.type = .global m → r ∈ (tsFile ω cfg schema op).globals := by
        intro m e
        rw [e] at hr
        simp only [Flat.ty, Flat.text, TsTy.refs, List.mem_singleton] at hr
        subst hr
        refine mem_globals.2 (.inr ?_)
        rw [ho]
        exact (mem_varGlobals (ω := ω)).2 ⟨_, hvm', e⟩
      rcases varFlat_known cfg hs u.type with ⟨m, e⟩ | e
      · exact hglob m e
      · cases hfl : varFlat cfg schema u.type with
        | global m => exact hglob m hfl
        | _ => exact absurd hr (hno _ e (by rw [hfl]; simp))

/-- **C81.** Every response of a server is admitted by the exported data type of the text written for an
operation, read as TypeScript together with the globals text that it imports: what the enums mean is taken from
that text. -/
theorem C81_responses_inhabit_both_texts (ω ω' : Hash) (fuel fuel' : Nat) (showDep : Bool) (cfg : TsConfig)
    (hv : ValidDoc doc) (hvi : ValidInputs doc) (hs : Schema.ofJson doc = .ok schema)
    (hbad : NoNonNullListInNullableList doc)
    (hw : Writable cfg doc) (hgw : GlobalsWritable cfg doc) (hsa : ScalarsApart cfg doc)
    (hfr : FragsValid schema frags) (d : Definition) (op : Operation) (ws : List Warning) (P : String)
    (hns : isSubscription d = false) (hP : serverRoot d = some P)
    (h : Operation.compile ω fuel ⟨schema, showDep, frags⟩ d = some (.ok op, ws))
    (hone : OneTypePerKey schema frags P [itemsOf d]) (hsame : SameBodies op.collection)
    (applies : List Directive → Prop) (hu : Unconditional applies (itemsOf d))
    (huf : FragsApply applies frags)
    (hmain : IsBinding op.name)
    (hk : ∀ k ∈ fieldKeys (itemsOf d), IsGqlName k)
    (hkf : ∀ name fd, AMap.get? frags name = some fd → ∀ k ∈ fieldKeys fd.items, IsGqlName k)
    (hvs : VarsWritable schema (op.variables.getD []))
    (hout : ∀ n, Outside cfg doc n → ¬ Generated op.name n ∧ n ≠ op.name ++ "Variables")
    (scalars env : String → JVal → Prop) (he : ScalarEnv cfg doc scalars env)
    (c : Compile) (hc : compileIr ω op cfg schema = .ok c)
    (used : List String) (hused : ∀ n ∈ c.globalTypesUsed, n ∈ used)
    (text : String) (hg : compileGlobals ω' fuel' cfg schema used = some (.ok text)) :
    ∃ m g, parseModule c.contents = some m ∧ parseModule text = some g ∧
      ∀ T ∈ objectTypes doc P, ∀ v, (∀ n, AnswersTo doc frags applies scalars n T [itemsOf d] v) →
        ∀ n, ModuleAdmits m (linked g env) n (dataName d) v := by
  obtain ⟨names, g, hpg, _, g3, g4⟩ := C78_globals_are_a_module ω' fuel' used hs hvi hgw text hg
  have hm := globalsModule_of hs hvi g3 g4
  have hP' := root_of_server hns hP h
  obtain ⟨_, _, _, hrefs, hparse⟩ := module_of_compile (Q := FromSchema cfg doc) hv hs hw hP' h hmain hk
    hkf hvs (fun _ h => h) hc
  -- the same with the enums as the schema has them
  have hplain : ∀ n, kindNamed doc n ≠ some "ENUM" → kindNamed doc n ≠ some "INPUT_OBJECT" →
      n ∉ g.flatMap TsStmt.exports := by
    intro n h1 h2
    rw [hm.exports]
    intro hG
    rcases hm.kind hG with h | h
    · exact h1 h
    · exact h2 h
  let env2 : String → JVal → Prop := fun n v =>
    if kindNamed doc n = some "ENUM" then ∃ s ∈ enumValuesOf doc n, v = .str s else linked g env n v
  have hold : ∀ n v, kindNamed doc n ≠ some "ENUM" → kindNamed doc n ≠ some "INPUT_OBJECT" → env n v → env2 n v := by
    intro n v h1 h2 hev
    show if _ then _ else _
    rw [if_neg h1]
    unfold linked
    rw [if_neg (hplain n h1 h2)]
    exact hev
  have hts : ∀ n ∈ ["string", "number", "boolean", "any"], kindNamed doc n ≠ some "ENUM" ∧
      kindNamed doc n ≠ some "INPUT_OBJECT" := by
    intro n hn
    have hb : ¬ IsBinding n := by
      simp only [List.mem_cons, List.not_mem_nil, or_false] at hn
      rcases hn with rfl | rfl | rfl | rfl <;> decide
    exact ⟨fun h => hb (hw.enums n h), fun h => hb (hgw.inputs n h)⟩
  have he2 : EnvFor cfg doc scalars env2 := by
    refine ⟨?_, ?_, ?_, ?_, ?_, ?_⟩
    · intro s
      obtain ⟨h1, h2⟩ := hts "string" (by simp)
      exact hold _ _ h1 h2 (he.string s)
    · intro s
      obtain ⟨h1, h2⟩ := hts "number" (by simp)
      exact hold _ _ h1 h2 (he.number s)
    · intro s
      obtain ⟨h1, h2⟩ := hts "boolean" (by simp)
      exact hold _ _ h1 h2 (he.boolean s)
    · intro s
      obtain ⟨h1, h2⟩ := hts "any" (by simp)
      exact hold _ _ h1 h2 (he.any s)
    · intro n j vs hj hkj hvs' s hs'
      show if _ then _ else _
      rw [if_pos (by simp [kindNamed, hj, hkj])]
      exact ⟨s, by simp [enumValuesOf, hj, hvs', hs'], rfl⟩
    · intro n v hkn hnv
      have := he.custom n v hkn hnv
      cases hb : cfg.bottomTypeConfig with
      | defaultBottomType => trivial
      | realName =>
        rw [hb] at this
        exact hold n v (by rw [hkn]; simp) (by rw [hkn]; simp) this
      | realNameWithPrefix p =>
        rw [hb] at this
        obtain ⟨h1, h2⟩ := (hsa n hkn).2.2 p hb
        exact hold (p ++ n) v h1 h2 this
  obtain ⟨m, hpm, hall⟩ := C76_responses_inhabit_text ω fuel showDep cfg hv hs hbad hw hfr d op ws P hns hP h hone
    hsame applies hu huf hmain hk hkf hvs hout scalars env2 he2 c hc
  rw [hparse] at hpm
  injection hpm with hpm
  subst hpm
  refine ⟨_, g, hparse, hpg, ?_⟩
  intro T hT v hans n
  refine moduleAdmits_env ?_ n _ v (hall T hT v hans n)
  intro n body hb r hr hnot v hev
  change if _ then _ else _ at hev
  split at hev
  · rename_i hkr
    have hnd : r ∉ (tsFile ω cfg schema op).declared := by rwa [mem_exports] at hnot
    have hu := alias_enum_used hs hw hsa hc hrefs hb hr hkr hnd
    have hG : GlobalName schema used r := .used (hused r hu)
    unfold linked
    rw [if_pos ((hm.exports r).2 hG)]
    intro k
    cases k with
    | zero => trivial
    | succ k =>
      obtain ⟨s, hs, hst⟩ := hm.stmt r hG
      rcases hst with ⟨_, vs, hp, _, rfl⟩ | ⟨hk', _⟩
      · obtain ⟨s, hs', rfl⟩ := hev
        exact .inl ⟨_, hs, (s, s), List.mem_map.2 ⟨s, hp.mem_iff.2 hs', rfl⟩, rfl⟩
      · rw [hkr] at hk'
        simp at hk'
  · exact hev

/-! ### A concrete case -/

theorem demo_inputs : ValidInputs Demo.respJson ∧ OneListLevel Demo.respJson := validInputsB_sound (by decide +kernel)

theorem demo_globals_writable : GlobalsWritable Demo.tsCfg Demo.respJson := globalsWritableB_sound (by decide +kernel)

theorem demo_apart : ScalarsApart Demo.tsCfg Demo.respJson := scalarsApartB_sound (by decide +kernel)

theorem demo_globals : ∃ text, compileGlobals .reversed 9 Demo.tsCfg Demo.respSchema ["Role", "Filter"] =
    some (.ok text) := by
  have h : (match compileGlobals .reversed 9 Demo.tsCfg Demo.respSchema ["Role", "Filter"] with
    | some (.ok _) => true | _ => false) = true := by decide +kernel
  split at h
  · exact ⟨_, by assumption⟩
  · simp at h

theorem demo_outside {n : String} (hn : Outside Demo.tsCfg Demo.respJson n ∨
    kindNamed Demo.respJson n = some "INPUT_OBJECT") : ¬ Generated "Q" n ∧ n ≠ "Q" ++ "Variables" := by
  rcases hn with hn | hn
  · have := outsideB_sound (q := fun n => !generatedB "Q" n && decide (n ≠ "QVariables")) (cfg := Demo.tsCfg)
        (doc := Demo.respJson) (by decide +kernel) n hn
    rw [Bool.and_eq_true, decide_eq_true_eq, Bool.not_eq_true'] at this
    exact ⟨generatedB_sound this.1, this.2⟩
  · have : (Demo.respJson.types.map JType.name).all (fun n =>
        if kindNamed Demo.respJson n = some "INPUT_OBJECT" then !generatedB "Q" n && decide (n ≠ "QVariables")
        else true) = true := by decide +kernel
    have := (List.all_eq_true.1 this) n (kindNamed_mem hn)
    rw [if_pos hn, Bool.and_eq_true, decide_eq_true_eq, Bool.not_eq_true'] at this
    exact ⟨generatedB_sound this.1, this.2⟩

/-- Meanings for the scalars, and no more. -/
def exactEnv (n : String) (v : JVal) : Prop :=
  match n with
  | "string" => ∃ s, v = .str s
  | "number" => ∃ s, v = .num s
  | "boolean" => ∃ b, v = .bool b
  | _ => ∃ s, v = .str s

theorem exactEnv_iff : ∀ n v, kindNamed Demo.respJson n = some "SCALAR" →
    (exactEnv (scalarSpelling Demo.tsCfg n) v ↔ LeafValue Demo.respJson stringScalars "SCALAR" n v) := by
  have key : ∀ n ∈ ["Date", "Int", "String", "ID"], ∀ v, (exactEnv (scalarSpelling Demo.tsCfg n) v ↔
      LeafValue Demo.respJson stringScalars "SCALAR" n v) := by
    intro n hn v
    simp only [List.mem_cons, List.not_mem_nil, or_false] at hn
    rcases hn with rfl | rfl | rfl | rfl
    · show (∃ s, v = .str s) ↔ (∃ s, v = .str s) ∧ v ≠ .null
      exact ⟨fun h => ⟨h, by obtain ⟨s, rfl⟩ := h; simp⟩, fun h => h.1⟩
    · exact Iff.rfl
    · exact Iff.rfl
    · exact Iff.rfl
  intro n v hn
  refine key n ?_ v
  have : (Demo.respJson.types.map JType.name).all (fun n => if kindNamed Demo.respJson n = some "SCALAR" then
      decide (n ∈ ["Date", "Int", "String", "ID"]) else true) = true := by decide +kernel
  have := (List.all_eq_true.1 this) n (kindNamed_mem hn)
  rw [if_pos hn, decide_eq_true_eq] at this
  exact this

/-- Values for `query Q($n: Int!, $f: Filter)`. -/
def varsValue : JVal := .obj [("f", .obj [("page", .obj [("size", .num "3")]), ("role", .str "ADMIN")]), ("n", .num "2")]

theorem varsValue_ok : VariablesOf Demo.respJson stringScalars (varsOf Demo.query) varsValue :=
  variablesB_sound (k := 9) (by decide +kernel)

/-- Not values for it: `n` is missing; `page` is missing in `f`. -/
theorem varsValue_bad : ¬ VariablesOf Demo.respJson stringScalars (varsOf Demo.query) (.obj []) ∧
    ¬ VariablesOf Demo.respJson stringScalars (varsOf Demo.query) (.obj [("n", .num "2"), ("f", .obj [])]) := by
  constructor
  · rintro ⟨fs, e, _, _, h⟩
    cases e
    rcases h ⟨⟨2, 9⟩, "n", .nonNull (.named "Int"), none⟩ (by decide) with ⟨x, hx, _⟩ | ⟨hx, _⟩
    · simp at hx
    · simp [isNullable] at hx
  · rintro ⟨fs, e, _, _, h⟩
    cases e
    rcases h ⟨⟨2, 20⟩, "f", .named "Filter", none⟩ (by decide) with ⟨x, hx, hax⟩ | ⟨_, hx⟩
    · simp only [List.mem_cons, Prod.mk.injEq, List.not_mem_nil, or_false] at hx
      rcases hx with ⟨h, _⟩ | ⟨_, rfl⟩
      · simp at h
      · rcases hax with h | h
        · simp at h
        · obtain ⟨fs, e, _, _, h3⟩ := (inputOf_object (by decide +kernel)).1 (h 1)
          cases e
          obtain ⟨kind, t, h4, h5⟩ := h3 "page" (by decide +kernel)
          have ht : inputFieldType Demo.respJson "Filter" "page" =
            some ("INPUT_OBJECT", .nonNull (.named "Page")) := by decide +kernel
          have h4 : inputFieldType Demo.respJson "Filter" "page" = some (kind, t) := h4
          rw [ht] at h4
          injection h4 with h4
          injection h4 with _ h4
          subst h4
          rcases h5 with ⟨x, hx, _⟩ | ⟨hx, _⟩
          · simp at hx
          · simp [isNullable] at hx
    · simp at hx

/-- The demo query and the globals file for it: what the variables type admits, and a response. -/
theorem C80_demo : ∃ op ws c text, Operation.compile .inOrder 9 ⟨Demo.respSchema, true, Demo.ctx.fragments⟩
      Demo.query = some (.ok op, ws) ∧ compileIr .inOrder op Demo.tsCfg Demo.respSchema = .ok c ∧
    compileGlobals .reversed 9 Demo.tsCfg Demo.respSchema ["Role", "Filter"] = some (.ok text) ∧
    ∃ m g, parseModule c.contents = some m ∧ parseModule text = some g ∧
      (∀ v, (∀ k, ModuleAdmits g exactEnv k "Filter" v) ↔
        ∀ k, InputOf Demo.respJson stringScalars k "Filter" v) ∧
      (∀ v, (∀ k, ModuleAdmits m (linked g exactEnv) k "QVariables" v) ↔
        VariablesOf Demo.respJson stringScalars (varsOf Demo.query) v) ∧
      (∀ k, ModuleAdmits m (linked g exactEnv) k "QVariables" varsValue) ∧
      ¬ (∀ k, ModuleAdmits m (linked g exactEnv) k "QVariables" (.obj [])) ∧
      ∀ k, ModuleAdmits m (linked g (leastEnv Demo.tsCfg Demo.respJson stringScalars)) k "Q" respValue := by
  obtain ⟨op, ws, c, h, hc, hd, hsame, htn, _, _, _, _, hname⟩ := respChecks_sound resp_checks
  obtain ⟨text, hg⟩ := demo_globals
  refine ⟨op, ws, c, text, h, hc, hg, ?_⟩
  have hone := (C21_listed_once_iff .inOrder 9 true (loaded_consistent resp_valid resp_loads)
    resp_frags_valid Demo.query op ws "Query" rfl h).1 hd
  have hmain : IsBinding op.name := by rw [hname]; decide
  have hk : ∀ k ∈ fieldKeys (itemsOf Demo.query), IsGqlName k := by decide
  have hkf : ∀ name fd, AMap.get? Demo.ctx.fragments name = some fd → ∀ k ∈ fieldKeys fd.items, IsGqlName k := by
    intro name fd hg; obtain rfl := demo_frag hg; decide
  have hch := module_checks
  unfold moduleChecks at hch
  rw [h] at hch
  simp only [hc, Bool.and_eq_true, decide_eq_true_eq] at hch
  have hvs : VarsWritable Demo.respSchema (op.variables.getD []) := varsWritableB_sound hch.1.1
  have hout : ∀ n, Outside Demo.tsCfg Demo.respJson n ∨ kindNamed Demo.respJson n = some "INPUT_OBJECT" →
      ¬ Generated op.name n ∧ n ≠ op.name ++ "Variables" := by
    rw [hname]; exact fun n => demo_outside
  have hused : ∀ n ∈ c.globalTypesUsed, n ∈ ["Role", "Filter"] := by rw [hch.2]; exact fun _ h => h
  obtain ⟨m, g, hm, hg', hiff⟩ := C80_variables_admit_exactly .inOrder .reversed 9 9 true Demo.tsCfg resp_valid
    demo_inputs.1 demo_inputs.2 resp_loads demo_writable demo_globals_writable demo_apart Demo.query op ws "Query"
    rfl h hmain hk hkf (by decide) (validVarsB_sound (by decide +kernel)) (by decide) hout stringScalars exactEnv
    exactEnv_iff c hc _ hused text hg
  obtain ⟨g', hg2, hiff'⟩ := C79_globals_admit_exactly .reversed 9 ["Role", "Filter"] resp_loads demo_inputs.1
    demo_inputs.2 demo_globals_writable demo_apart stringScalars exactEnv exactEnv_iff text hg
  have hle := leastEnv_for Demo.tsCfg Demo.respJson stringScalars
  obtain ⟨m', g'', hm', hg3, hresp⟩ := C81_responses_inhabit_both_texts .inOrder .reversed 9 9 true Demo.tsCfg
    resp_valid demo_inputs.1 resp_loads (noBadListB_sound (by decide +kernel)) demo_writable demo_globals_writable
    demo_apart resp_frags_valid Demo.query op ws "Query" rfl rfl h hone hsame (fun d => d.isEmpty = true)
    (by unfold Unconditional; decide)
    (by intro name fd hg; obtain rfl := demo_frag hg; unfold Unconditional; decide)
    hmain hk hkf hvs (fun n hn => hout n (.inl hn)) stringScalars _
    ⟨hle.string, hle.number, hle.boolean, hle.any, hle.custom⟩ c hc _ hused text hg
  rw [hm] at hm'
  rw [hg'] at hg2 hg3
  cases hm'
  cases hg2
  cases hg3
  exact ⟨m, g, hm, hg', hiff' "Filter" (.used (by simp)), hiff, (hiff _).2 varsValue_ok,
    fun h => varsValue_bad.1 ((hiff _).1 h), hresp "Query" (by decide +kernel) _ resp_answers⟩

/-! ### Default values -/

/-- As `VariablesOf`, except that variables with a default value may be left out, as GraphQL has it. -/
def VariablesWithDefaults (doc : JSchema) (scalars : String → JVal → Prop) (ds : List VarDef) (v : JVal) : Prop :=
  ∃ fs : List (String × JVal), v = .obj fs ∧ (fs.map Prod.fst).Nodup ∧
    (∀ key ∈ fs.map Prod.fst, key ∈ ds.map VarDef.name) ∧
    ∀ d ∈ ds, (∃ x, (d.name, x) ∈ fs ∧ Admits (fun y => ∀ k, InputOf doc scalars k (baseName d.type) y) d.type x) ∨
      ((isNullable d.type = true ∨ d.default.isSome = true) ∧ d.name ∉ fs.map Prod.fst)

/-- `query Q($n: Int! = 5) { count }`. -/
def defaultQuery : Definition := .operation .query ⟨1, 1⟩ (some "Q")
  [⟨⟨1, 9⟩, "n", .nonNull (.named "Int"), some (.other "5")⟩] [] [Demo.leaf 1 25 "count"]

theorem default_text : ∃ text, Demo.textOf Demo.tsCfg Demo.respSchema [] defaultQuery = some text ∧
    parseModule text = some [
      .importType ["QueryDocumentNode"] "doc",
      .typeAlias "Q" (.object [⟨true, "count", false, .ref "number"⟩]),
      .typeAlias "QVariables" (.object [⟨false, "n", false, .ref "number"⟩]),
      .declare "graphqlDocument" "QueryDocumentNode" [.ref "Q", .ref "QVariables"],
      .exportDefault "graphqlDocument"] := by
  have h : (Demo.textOf Demo.tsCfg Demo.respSchema [] defaultQuery).any (fun t => decide (parseModule t = some [
      .importType ["QueryDocumentNode"] "doc",
      .typeAlias "Q" (.object [⟨true, "count", false, .ref "number"⟩]),
      .typeAlias "QVariables" (.object [⟨false, "n", false, .ref "number"⟩]),
      .declare "graphqlDocument" "QueryDocumentNode" [.ref "Q", .ref "QVariables"],
      .exportDefault "graphqlDocument"])) = true := by decide +kernel
  obtain ⟨t, h1, h2⟩ := of_text h
  exact ⟨t, h1, of_decide_eq_true h2⟩

/-- **C80, what is missing.** Default values are ignored: a variable of a non-null type that has a default value
may be left out, but the generated type does not let it. -/
theorem C80_default_value_witness :
    VariablesWithDefaults Demo.respJson stringScalars (varsOf defaultQuery) (.obj []) ∧
    ∃ text m, Demo.textOf Demo.tsCfg Demo.respSchema [] defaultQuery = some text ∧
      parseModule text = some m ∧ ∀ env k, ¬ ModuleAdmits m env (k + 1) "QVariables" (.obj []) := by
  refine ⟨⟨[], rfl, by simp, by simp, ?_⟩, ?_⟩
  · intro d hd
    have hd : d ∈ [_] := hd
    rw [List.mem_singleton] at hd
    subst hd
    exact .inr ⟨.inr rfl, by simp⟩
  · obtain ⟨t, h1, h2⟩ := default_text
    refine ⟨t, _, h1, h2, ?_⟩
    rintro env k (⟨ms, hm, _⟩ | ⟨body, hb, hv⟩)
    · simp at hm
    · simp only [List.mem_cons, TsStmt.typeAlias.injEq, reduceCtorEq, List.not_mem_nil, or_false, false_or] at hb
      rcases hb with ⟨h, _⟩ | ⟨_, rfl⟩
      · simp at h
      · obtain ⟨fs, e, _, _, h⟩ := hv
        cases e
        rcases h _ (List.mem_singleton.2 rfl) with ⟨x, hx, _⟩ | ⟨hx, _⟩
        · simp at hx
        · simp at hx

end Qlc
