import Verif.Lemmas.Upgrade
import Verif.Spec.Growth
import Verif.Props.WholeWay
import Verif.Props.Widen
/-
C134: the generated files stay right when the server is upgraded and nothing is generated anew.
-/
set_option autoImplicit false

namespace Qlc
open Spec

/-! ### When an upgrade is safe -/

theorem safer_of_narrower {ok : String → String → Prop} : ∀ {t' t : VarTy}, NarrowerTy t' t →
    ok (baseName t) (baseName t) → SaferTy ok t' t
  | .named _, .named _, h, hok => by cases h; exact hok
  | .named _, .list _, h, _ => by simp [NarrowerTy] at h
  | .named _, .nonNull _, h, _ => by simp [NarrowerTy] at h
  | .list _, .named _, h, _ => by simp [NarrowerTy] at h
  | .list _, .nonNull _, h, _ => by simp [NarrowerTy] at h
  | .list a, .list b, h, hok => safer_of_narrower (t' := a) (t := b) h hok
  | .nonNull a, .nonNull b, h, hok => safer_of_narrower (t' := a) (t := b) h hok
  | .nonNull a, .named B, h, hok => safer_of_narrower (t' := a) (t := .named B) h hok
  | .nonNull a, .list b, h, hok => safer_of_narrower (t' := a) (t := .list b) h hok

theorem narrower_refl : ∀ t : VarTy, NarrowerTy t t
  | .named _ => rfl
  | .list t => narrower_refl t
  | .nonNull t => narrower_refl t

section
variable {new old : JSchema}

/-- **C134.** An upgrade is safe if it only promises more, in the sense of C121 … -/
theorem C134_promising_more (h : PromisesMore new old)
    (hres : ∀ T, fieldType new T "__schema" = none ∧ fieldType new T "__type" = none) : AnswersSafe new old where
  objects := fun C _ T hT => (h.members C T).1 hT
  kept := fun C _ T hT _ => (h.members C T).2 hT
  leaves := by
    intro T name k t k' t' h1 h2 _
    obtain ⟨t₂, h3, hnar⟩ := h.fields T name k' t' h2
    rw [h1] at h3
    cases h3
    exact ⟨rfl, safer_of_narrower hnar rfl⟩
  composites := by
    intro T name k t k' t' h1 h2 hk
    obtain ⟨t₂, h3, hnar⟩ := h.fields T name k' t' h2
    rw [h1] at h3
    cases h3
    exact ⟨hk, safer_of_narrower hnar (fun U hU => (h.members _ U).1 hU)⟩
  enums := fun n _ j' vs' h1 h2 => h.enums n j' vs' h1 h2
  reserved := hres

/-- **C134.** … or if it only adds, in the sense of C97, except to enums. -/
theorem C134_growth (hv : ValidDoc old) (h : Grows old new)
    (henum : ∀ n, kindNamed old n = some "ENUM" → typeNamed new n = typeNamed old n)
    (hres : ∀ T, fieldType new T "__schema" = none ∧ fieldType new T "__type" = none) : AnswersSafe new old := by
  have same : ∀ T name k t k' t', fieldType old T name = some (k, t) → fieldType new T name = some (k', t') →
      k' = k ∧ t' = t := by
    intro T name k t k' t' h1 h2
    unfold fieldType at h1 h2
    cases hl : lastNamed JField.name name (declaredFields old T) with
    | none => rw [hl] at h1; simp at h1
    | some f =>
      rw [h.fields T name f hl] at h2
      rw [hl] at h1
      rw [h1] at h2
      cases h2
      exact ⟨rfl, rfl⟩
  exact
    { objects := fun C hC T hT => (h.objects C hC T).2 hT
      kept := fun C hC T hT _ => (h.objects C hC T).1 hT
      leaves := by
        intro T name k t k' t' h1 h2 _
        obtain ⟨rfl, rfl⟩ := same T name k t k' t' h1 h2
        exact ⟨rfl, safer_of_narrower (narrower_refl _) rfl⟩
      composites := by
        intro T name k t k' t' h1 h2 hk
        obtain ⟨rfl, rfl⟩ := same T name k t k' t' h1 h2
        exact ⟨hk, safer_of_narrower (narrower_refl _)
          (fun U hU => (h.objects _ ⟨_, fieldType_baseKind hv h1, hk⟩ U).2 hU)⟩
      enums := by
        intro n hn j' vs' h1 h2
        rw [henum n hn] at h1
        exact ⟨j', vs', h1, h2, fun _ h => h⟩
      reserved := hres }

theorem widerVars_refl {ds : List VarDef} (hd : (ds.map VarDef.name).Nodup) : WiderVars ds ds where
  kept := fun x hx => ⟨x, hx, rfl⟩
  types := by
    intro x hx y hy e
    obtain rfl : y = x := List.inj_on_of_nodup_map hd hy hx e
    exact narrower_refl _
  added := fun y hy h => absurd rfl (h y hy)

end

/-! ### The files on the disk -/

section
variable {ω : Path → Hash} {ω' : Hash} {fuel threads : Nat} {P : ParserSetup} {dist : String → String → Nat}
  {cfg : CompileConfig} {w : World} {root : Entry} {rootPath : Path} {cwd : List String} {old new : JSchema}
  {schema : Schema} {applies : List Directive → Prop}

/-- What is known of a file of a sound project, by its contents. -/
theorem sound_file (F : SoundProject (Ext.graphql P dist) cwd w cfg old schema applies rootPath root) {p : Path}
    (hp : FoundIn root p) {contents : String} {d : Definition} {frags : Frags} (hread : w.read p = .ok contents)
    (htext : ∃ ts, TokensOf (P.place contents.toList) contents.toList ts ∧ IsDocument [d] ts)
    (hsc : InScope (Ext.graphql P dist) w cfg p contents frags) :
    GqlValid old frags d ∧ Unconditional applies (itemsOf d) ∧ FragsApply applies frags ∧ FieldsMerge old frags d := by
  obtain ⟨contents', d', hr', hp', _, hval, _⟩ := F.fine.files p hp
  obtain rfl : contents' = contents := Except.ok.inj (hr'.symm.trans hread)
  obtain ⟨ts, t1, t2⟩ := htext
  obtain ⟨ts', t1', _, t2'⟩ := (C127_reads_iff P _ _).1 hp'
  obtain rfl := C127_one_sequence t1 t1'
  obtain rfl : d' = d := by simpa using C127_one_document t2' t2
  obtain ⟨_, r2, _, r3⟩ := F.ruled p hp _ _ hr' hp'
  exact ⟨hval _ hsc, r2, (r3 _ hsc).1, (F.merging p hp _ _ hr' hp').1 _ hsc⟩

/-- The answers of the upgraded server to a document are answers of the old one. -/
theorem document_upgraded {frags : Frags} {d : Definition} {scalars : String → JVal → Prop} (hv : ValidDoc old)
    (hv' : ValidDoc new) (A : AnswersSafe new old) (hval : GqlValid old frags d) (hu : Unconditional applies (itemsOf d))
    (hfa : FragsApply applies frags) (hm : FieldsMerge old frags d) {T₀ T : String} (hT₀ : serverRoot d = some T₀)
    (hT : T ∈ objectTypes new T₀) {v : JVal} (n : Nat) (h : AnswersTo new frags applies scalars n T [itemsOf d] v) :
    T ∈ objectTypes old T₀ ∧ AnswersTo old frags applies scalars n T [itemsOf d] v := by
  obtain ⟨P₀, hP₀, hcn, hs⟩ := hval.selections
  rw [hT₀] at hP₀
  cases hP₀
  have hTo := A.objects _ hcn T hT
  refine ⟨hTo, upgraded_answers hv hv' A hval.fragments n T _ v (hv'.objects _ T hT) ?_ ?_ h⟩
  · intro set hset
    rw [List.mem_singleton] at hset
    subst hset
    exact ⟨_, hTo, hs⟩
  · intro n
    refine mergesWell_applies hfa n T _ ?_ (hm _ hT₀ T hTo n)
    intro set hset
    rw [List.mem_singleton] at hset
    subst hset
    exact hu

/-- **C134.** A complete run over a sound project wrote its files for one version of the schema.  Now the server has another
version of it, and nothing is generated anew.  If the upgrade is safe for answers, then the files still admit every answer
of the server; and if the new version takes the input of the old one and the types are exact, then the server takes every
value of the type of the variables. -/
theorem C134_server_first (hs : Schema.ofJson old = .ok schema)
    (F : SoundProject (Ext.graphql P dist) cwd w cfg old schema applies rootPath root)
    {s : PoolSt World} {ms : List Msg} {w' : World}
    (R : RunsTo ω ω' fuel (Ext.graphql P dist) cfg schema rootPath root threads w s ms w')
    (scalars env : String → JVal → Prop) (he : ScalarEnv cfg.toTsConfig old scalars env)
    (hv' : ValidDoc new) (A : AnswersSafe new old) :
    ∃ g : List TsStmt,
      ((∃ n, UsedGlobal ω fuel (Ext.graphql P dist) cfg schema w root n) → HoldsModule w' (globalsId w cfg rootPath) g) ∧
      ∀ p, FoundIn root p → ∃ contents d frags m T₀, w.read p = .ok contents ∧
        (∃ ts, TokensOf (P.place contents.toList) contents.toList ts ∧ IsDocument [d] ts) ∧
        InScope (Ext.graphql P dist) w cfg p contents frags ∧ serverRoot d = some T₀ ∧
        HoldsModule w' (w.resolve (outputPath p)) m ∧
        (∀ T ∈ objectTypes new T₀, ∀ v, (∀ n, AnswersTo new frags applies scalars n T [itemsOf d] v) →
          ∀ n, ModuleAdmits m (linked g env) n (dataName d) v) ∧
        (DemandsLess new old → ExactFile (Ext.graphql P dist) w cfg old schema scalars env p → varsOf d ≠ [] →
          ∀ v, (∀ n, ModuleAdmits m (linked g env) n (dataName d ++ "Variables") v) →
            VariablesOf new scalars (varsOf d) v) := by
  obtain ⟨_, g, g1, _, hfiles⟩ := C131_right_types hs F R .plain scalars env he
  refine ⟨g, g1, fun p hp => ?_⟩
  obtain ⟨contents, d, frags, m, T₀, h1, h2, h3, h4, h5, h6, h7⟩ := hfiles p hp
  obtain ⟨hval, hu, hfa, hm⟩ := sound_file F hp h1 h2 h3
  refine ⟨contents, d, frags, m, T₀, h1, h2, h3, h4, h5, fun T hT v ha => ?_, fun hd E hne v hm' => ?_⟩
  · have key := fun n => document_upgraded F.schemaFit.valid hv' A hval hu hfa hm h4 hT n (ha n)
    exact h6.1 T (key 0).1 v (fun n => (key n).2)
  · exact wider_variables hd (widerVars_refl hval.variableNames) ((h7 E).2 hne v hm')

/-- **C134.** If the files are generated anew after the upgrade, and the types of the new version are exact, then every value
of a new type of data belongs to the old type: code written for the old files may be given it. -/
theorem C134_generated_anew (hs : Schema.ofJson old = .ok schema)
    (F : SoundProject (Ext.graphql P dist) cwd w cfg old schema applies rootPath root)
    {s : PoolSt World} {ms : List Msg} {w₁ : World}
    (R : RunsTo ω ω' fuel (Ext.graphql P dist) cfg schema rootPath root threads w s ms w₁)
    {schema' : Schema} (hs' : Schema.ofJson new = .ok schema')
    (F' : SoundProject (Ext.graphql P dist) cwd w cfg new schema' applies rootPath root)
    {ω₂ : Path → Hash} {ω₂' : Hash} {fuel₂ threads₂ : Nat} {s' : PoolSt World} {ms' : List Msg} {w₂ : World}
    (R' : RunsTo ω₂ ω₂' fuel₂ (Ext.graphql P dist) cfg schema' rootPath root threads₂ w s' ms' w₂)
    (scalars env : String → JVal → Prop) (he : ScalarEnv cfg.toTsConfig old scalars env)
    (he' : ScalarEnv cfg.toTsConfig new scalars env) (A : AnswersSafe new old) :
    ∃ g g' : List TsStmt,
      ((∃ n, UsedGlobal ω fuel (Ext.graphql P dist) cfg schema w root n) → HoldsModule w₁ (globalsId w cfg rootPath) g) ∧
      ((∃ n, UsedGlobal ω₂ fuel₂ (Ext.graphql P dist) cfg schema' w root n) →
        HoldsModule w₂ (globalsId w cfg rootPath) g') ∧
      ∀ p, FoundIn root p → ExactFile (Ext.graphql P dist) w cfg new schema' scalars env p →
        ∃ contents d m m', w.read p = .ok contents ∧
          (∃ ts, TokensOf (P.place contents.toList) contents.toList ts ∧ IsDocument [d] ts) ∧
          HoldsModule w₁ (w.resolve (outputPath p)) m ∧ HoldsModule w₂ (w.resolve (outputPath p)) m' ∧
          ∀ v, (∀ n, ModuleAdmits m' (linked g' env) n (dataName d) v) →
            ∀ n, ModuleAdmits m (linked g env) n (dataName d) v := by
  obtain ⟨g, g1, hfiles⟩ := C134_server_first hs F R scalars env he F'.schemaFit.valid A
  obtain ⟨_, g', g1', _, hfiles'⟩ := C131_right_types hs' F' R' .plain scalars env he'
  refine ⟨g, g', g1, g1', fun p hp E => ?_⟩
  obtain ⟨contents, d, frags, m, T₀, h1, h2, h3, h4, h5, h6, _⟩ := hfiles p hp
  obtain ⟨contents', d', frags', m', T₀', k1, k2, k3, k4, k5, _, k7⟩ := hfiles' p hp
  obtain rfl : contents' = contents := Except.ok.inj (k1.symm.trans h1)
  obtain ⟨ts, t1, t2⟩ := h2
  obtain ⟨ts', t1', t2'⟩ := k2
  obtain rfl := C127_one_sequence t1 t1'
  obtain rfl : d' = d := by simpa using C127_one_document t2' t2
  obtain rfl : T₀' = T₀ := by rw [h4] at k4; exact (Option.some.inj k4).symm
  refine ⟨contents', d', m, m', h1, ⟨ts, t1, t2⟩, h5, k5, fun v hv => ?_⟩
  obtain ⟨T, hT, ha⟩ := (k7 E).1 v hv
  refine h6 T hT v (fun n => ?_)
  rw [answers_get (inScope_get _ _ _ _ h3 k3)]
  exact ha n

end

/-! ### A check -/

/-- `SaferTy`, as a check. -/
def saferB (ok : String → String → Bool) : VarTy → VarTy → Bool
  | .named A, .named B => ok A B
  | .list a, .list b => saferB ok a b
  | .nonNull a, .nonNull b => saferB ok a b
  | .nonNull a, b => saferB ok a b
  | _, _ => false

theorem saferB_sound {ok : String → String → Bool} {ok' : String → String → Prop}
    (hok : ∀ a b, ok a b = true → ok' a b) : ∀ {t' t : VarTy}, saferB ok t' t = true → SaferTy ok' t' t
  | .named _, .named _, h => hok _ _ h
  | .named _, .list _, h => by simp [saferB] at h
  | .named _, .nonNull _, h => by simp [saferB] at h
  | .list _, .named _, h => by simp [saferB] at h
  | .list _, .nonNull _, h => by simp [saferB] at h
  | .list a, .list b, h => saferB_sound (t' := a) (t := b) hok h
  | .nonNull a, .nonNull b, h => saferB_sound (t' := a) (t := b) hok h
  | .nonNull a, .named B, h => saferB_sound (t' := a) (t := .named B) hok h
  | .nonNull a, .list b, h => saferB_sound (t' := a) (t := .list b) hok h

/-- `AnswersSafe`, as a check. -/
def answersSafeB (new old : JSchema) : Bool :=
  (old.types.map JType.name).all (fun C =>
    (match kindNamed old C with
      | none => true
      | some k => !decide (CompositeKind k) ||
        ((objectTypes new C).all (fun T => decide (T ∈ objectTypes old C)) &&
          (objectTypes old C).all (fun T => !decide (kindNamed new T = some "OBJECT") ||
            decide (T ∈ objectTypes new C)))) &&
    ((declaredFields old C).map JField.name).all (fun name =>
      match fieldType old C name, fieldType new C name with
      | some (k, t), some (k', t') =>
        if CompositeKind k then decide (CompositeKind k') &&
          saferB (fun a b => (objectTypes new a).all (fun U => decide (U ∈ objectTypes old b))) t' t
        else decide (k' = k) && saferB (fun a b => decide (a = b)) t' t
      | _, _ => true) &&
    (!decide (kindNamed old C = some "ENUM") ||
      match (typeNamed new C).bind JType.enumValues with
      | none => true
      | some vs' => match (typeNamed old C).bind JType.enumValues with
        | none => false
        | some vs => vs'.all (fun s => decide (s ∈ vs)))) &&
  (new.types.map JType.name).all (fun T =>
    decide (fieldType new T "__schema" = none) && decide (fieldType new T "__type" = none))

theorem declared_listed {doc : JSchema} {P : String} {f : JField} (h : f ∈ declaredFields doc P) :
    P ∈ doc.types.map JType.name := by
  unfold declaredFields at h
  cases hj : typeNamed doc P with
  | none => rw [hj] at h; simp at h
  | some j => exact typeNamed_mem hj

theorem answersSafeB_sound {new old : JSchema} (h : answersSafeB new old = true) : AnswersSafe new old := by
  unfold answersSafeB at h
  rw [Bool.and_eq_true, List.all_eq_true, List.all_eq_true] at h
  obtain ⟨h1, h2⟩ := h
  have field : ∀ T name k t k' t', fieldType old T name = some (k, t) → fieldType new T name = some (k', t') →
      (if CompositeKind k then decide (CompositeKind k') &&
          saferB (fun a b => (objectTypes new a).all (fun U => decide (U ∈ objectTypes old b))) t' t
        else decide (k' = k) && saferB (fun a b => decide (a = b)) t' t) = true := by
    intro T name k t k' t' e1 e2
    obtain ⟨f, hf, rfl⟩ := fieldType_mem e1
    have h3 := h1 T (declared_listed hf)
    simp only [Bool.and_eq_true] at h3
    have h4 := List.all_eq_true.1 h3.1.2 f.name (List.mem_map_of_mem hf)
    rw [e1, e2] at h4
    exact h4
  have comp : ∀ C, CompositeNamed old C → (∀ T ∈ objectTypes new C, T ∈ objectTypes old C) ∧
      ∀ T ∈ objectTypes old C, kindNamed new T = some "OBJECT" → T ∈ objectTypes new C := by
    rintro C ⟨k, hk, hc⟩
    have h3 := h1 C (kindNamed_mem hk)
    simp only [Bool.and_eq_true] at h3
    have h4 := h3.1.1
    rw [hk] at h4
    simp only [Bool.or_eq_true, Bool.not_eq_true', decide_eq_false_iff_not, Bool.and_eq_true, List.all_eq_true,
      decide_eq_true_eq] at h4
    rcases h4 with h4 | ⟨h4, h5⟩
    · exact absurd hc h4
    · exact ⟨h4, fun T hT hn => (h5 T hT).resolve_left (fun h => h hn)⟩
  refine ⟨fun C hC => (comp C hC).1, fun C hC => (comp C hC).2, ?_, ?_, ?_, ?_⟩
  · intro T name k t k' t' e1 e2 hk
    have := field T name k t k' t' e1 e2
    rw [if_neg hk, Bool.and_eq_true, decide_eq_true_eq] at this
    exact ⟨this.1, saferB_sound (fun a b h => by simpa using h) this.2⟩
  · intro T name k t k' t' e1 e2 hk
    have := field T name k t k' t' e1 e2
    rw [if_pos hk, Bool.and_eq_true, decide_eq_true_eq] at this
    exact ⟨this.1, saferB_sound (fun a b h => by simpa using h) this.2⟩
  · intro n hn j' vs' e1 e2
    have h3 := h1 n (kindNamed_mem hn)
    simp only [Bool.and_eq_true] at h3
    have h4 := h3.2
    rw [Bool.or_eq_true] at h4
    rcases h4 with h4 | h4
    · simp [hn] at h4
    · rw [e1] at h4
      simp only [Option.bind_some, e2] at h4
      cases hj : typeNamed old n with
      | none => rw [hj] at h4; simp at h4
      | some j =>
        rw [hj] at h4
        simp only [Option.bind_some] at h4
        cases hv : j.enumValues with
        | none => rw [hv] at h4; simp at h4
        | some vs =>
          rw [hv] at h4
          exact ⟨j, vs, rfl, hv, by simpa using h4⟩
  · intro T
    by_cases hT : T ∈ new.types.map JType.name
    · simpa using h2 T hT
    · have none_of : ∀ name, fieldType new T name = none := by
        intro name
        cases hf : fieldType new T name with
        | none => rfl
        | some kt =>
          obtain ⟨f, hf, _⟩ := fieldType_mem hf
          exact absurd (declared_listed hf) hT
      exact ⟨none_of _, none_of _⟩

/-! ### Examples -/

namespace Demo

/-- The demo schema after an upgrade: `Query.color` is non-null, there is a field `size` and a type `Size`, and the value
`GREY` is gone. -/
def laterDoc : JSchema := ⟨toolDoc.types.map (fun j =>
  { j with
    fields := j.fields.map (fun l => l.map (fun f =>
      if f.name = "color" then { f with typeInformation := Demo.nn f.typeInformation } else f) ++
        (l.head?.toList.map (fun f => { f with name := "size", typeInformation := Demo.nn (.mk "SCALAR" (some "Int") none) })))
    enumValues := j.enumValues.map (fun l => l.filter (fun s => decide (s ≠ "GREY"))) })⟩

/-- The demo schema after a different upgrade: there is a further color. -/
def riskyDoc : JSchema := ⟨toolDoc.types.map (fun j => { j with enumValues := j.enumValues.map (fun l => l ++ ["BLUE"]) })⟩

/-- An answer with the new color. -/
def blue : JVal := .obj [("new", .arr [.num "7"]), ("color", .str "BLUE")]

end Demo

/-- A server with interfaces: the upgrade of C121's example is safe; the other way round is not. -/
example : AnswersSafe Demo.strictJson Demo.respJson := answersSafeB_sound (by decide +kernel)

example : answersSafeB Demo.respJson Demo.strictJson = false := by decide +kernel

theorem later_safe : AnswersSafe Demo.laterDoc Demo.toolDoc := answersSafeB_sound (by decide +kernel)

theorem later_valid : ValidDoc Demo.laterDoc := validDocB_sound (by decide +kernel)

theorem risky_valid : ValidDoc Demo.riskyDoc := validDocB_sound (by decide +kernel)

theorem query_items : ∃ p₁ p₂, itemsOf Demo.toolQuery = [.field p₁ none "new" [] [] [], .field p₂ none "color" [] [] []] :=
  ⟨_, _, rfl⟩

/-- The server answers with the new color … -/
theorem blue_answers (n : Nat) : AnswersTo Demo.riskyDoc [] (fun d => d.isEmpty = true) stringScalars n "Query"
    [itemsOf Demo.toolQuery] Demo.blue := by
  cases n with
  | zero => exact ⟨_, rfl⟩
  | succ n =>
    obtain ⟨p₁, p₂, e⟩ := query_items
    rw [e]
    refine ⟨[⟨"new", "new", []⟩, ⟨"color", "color", []⟩], ⟨[_], .cons (.field rfl (.field rfl .nil)) .nil, rfl⟩, _, rfl,
      by decide, by intro key; simp, ?_⟩
    intro w hw
    rw [List.mem_cons, List.mem_singleton] at hw
    rcases hw with rfl | rfl
    · refine ⟨.arr [.num "7"], by simp, ⟨"new", "new", []⟩, [], rfl, .inr ⟨by decide, "SCALAR",
        .nonNull (.list (.nonNull (.named "Int"))), by decide +kernel, by simp, .inr ⟨_, rfl, ?_⟩⟩⟩
      intro x hx
      rw [List.mem_singleton] at hx
      subst hx
      refine ⟨by simp, .inr ?_⟩
      beta_reduce
      rw [if_neg (by decide)]
      unfold LeafValue
      rw [if_neg (by decide), if_pos (by decide)]
      exact ⟨_, rfl⟩
    · refine ⟨.str "BLUE", by simp, ⟨"color", "color", []⟩, [], rfl, .inr ⟨by decide, "ENUM", .named "Color",
        by decide +kernel, .inr ?_⟩⟩
      beta_reduce
      rw [if_neg (by decide)]
      unfold LeafValue
      rw [if_pos rfl]
      have h : ∃ j vs, typeNamed Demo.riskyDoc "Color" = some j ∧ j.enumValues = some vs ∧ "BLUE" ∈ vs := by
        have hb : (match (typeNamed Demo.riskyDoc "Color").bind JType.enumValues with
          | some vs => decide ("BLUE" ∈ vs) | none => false) = true := by decide +kernel
        cases hj : typeNamed Demo.riskyDoc "Color" with
        | none => rw [hj] at hb; simp at hb
        | some j =>
          rw [hj] at hb
          cases hv : j.enumValues with
          | none => simp [hv] at hb
          | some vs => exact ⟨j, vs, rfl, hv, by simpa [hv] using hb⟩
      obtain ⟨j, vs, h1, h2, h3⟩ := h
      exact ⟨j, vs, "BLUE", h1, h2, h3, rfl⟩

/-- … which the old version did not do. -/
theorem blue_unexpected {T : String} : ¬ AnswersTo Demo.toolDoc [] (fun d => d.isEmpty = true) stringScalars 1 T
    [itemsOf Demo.toolQuery] Demo.blue := by
  obtain ⟨p₁, p₂, e⟩ := query_items
  rw [e]
  rintro ⟨L, ⟨Ls, hL, rfl⟩, fs, hfs, _, _, h⟩
  cases hL with
  | cons h1 h2 =>
  cases h2
  cases h1 with
  | leftOutField hd _ => exact hd rfl
  | field _ h1 =>
  cases h1 with
  | leftOutField hd _ => exact hd rfl
  | field _ h1 =>
  cases h1
  cases hfs
  obtain ⟨x, hx, r, rest, hr, hv⟩ := h ⟨"color", "color", []⟩ (by simp)
  have hx : x = .str "BLUE" := by simpa using hx
  subst hx
  have hr : r = ⟨"color", "color", []⟩ := by
    have : [(⟨"color", "color", []⟩ : Wanted)] = r :: rest := by
      rw [← hr]; rfl
    cases this
    rfl
  subst hr
  rcases hv with ⟨h, _⟩ | ⟨_, k, t, hf, ha⟩
  · exact absurd h (by decide)
  · have hT : T = "Query" := by
      obtain ⟨f, hf, _⟩ := fieldType_mem hf
      have hm := declared_listed hf
      have hall : ∀ T ∈ Demo.toolDoc.types.map JType.name, T ≠ "Query" → declaredFields Demo.toolDoc T = [] := by
        intro T hT hne
        have : (Demo.toolDoc.types.map JType.name).all (fun T => decide (T = "Query") ||
          (declaredFields Demo.toolDoc T).isEmpty) = true := by decide +kernel
        have := List.all_eq_true.1 this T hT
        simpa [hne] using this
      by_contra hne
      rw [hall T hm hne] at hf
      simp at hf
    subst hT
    rw [show fieldType Demo.toolDoc "Query" "color" = some ("ENUM", .named "Color") by decide +kernel] at hf
    cases hf
    rcases ha with ha | ha
    · simp at ha
    · rw [if_neg (by decide)] at ha
      unfold LeafValue at ha
      rw [if_pos rfl] at ha
      obtain ⟨j, vs, s, e1, e2, e3, e4⟩ := ha
      cases e4
      rw [show baseName (.named "Color") = "Color" from rfl] at e1
      have hb : ((typeNamed Demo.toolDoc "Color").bind JType.enumValues).all (fun vs => !decide ("BLUE" ∈ vs)) = true := by
        decide +kernel
      rw [e1] at hb
      simp [e2, e3] at hb

/-- The project with `query Q { new color }` on the disk.  A run can end, and every run that ends has left a file that stays
right after the first upgrade; after the second one it does not, since the server may then answer with the new color. -/
theorem C134_demo :
    (∃ fuel n, ∃ s : PoolSt World, ∃ ms w', RunsTo (fun _ => .inOrder) .inOrder fuel Demo.wayExt Demo.toolCfg Demo.toolSchema
      ⟨true, ["r"]⟩ Demo.toolTree n Demo.wayWorld s ms w') ∧
    ∀ ω ω' fuel n, ∀ s : PoolSt World, ∀ ms w', RunsTo ω ω' fuel Demo.wayExt Demo.toolCfg Demo.toolSchema
        ⟨true, ["r"]⟩ Demo.toolTree n Demo.wayWorld s ms w' →
      ∃ g m, HoldsModule w' "/r/q.graphql.d.ts" m ∧
        (∀ T ∈ objectTypes Demo.laterDoc "Query", ∀ v,
          (∀ n, AnswersTo Demo.laterDoc [] (fun d => d.isEmpty = true) stringScalars n T [itemsOf Demo.toolQuery] v) →
          ∀ n, ModuleAdmits m (linked g tightEnv) n "Q" v) ∧
        (∀ n, AnswersTo Demo.riskyDoc [] (fun d => d.isEmpty = true) stringScalars n "Query" [itemsOf Demo.toolQuery]
          Demo.blue) ∧
        ¬ ∀ n, ModuleAdmits m (linked g tightEnv) n "Q" Demo.blue := by
  obtain ⟨hr, hd, hg⟩ := C114_paths_apart way_sound.ordinary
  constructor
  · obtain ⟨N, hN⟩ := C111_valid_project_completes tool_schema.valid tool_loads way_sound.fine hr hd hg (by decide +kernel)
      .plain
    obtain ⟨n, K, ms, w', _, R, _, _⟩ := hN N (Nat.le_refl _) (fun _ => .inOrder) .inOrder (fun _ => (0, 1)) 1 (by decide)
      (fun _ => Nat.one_pos) (fun i hi n => ⟨n, Nat.le_refl _, by show 0 = i; omega⟩) (.inl rfl)
    obtain ⟨w'', R, _⟩ := C66_whole_program hr hd (by decide +kernel) K ms w' R
    exact ⟨N, 1, _, ms, w'', R⟩
  · intro ω ω' fuel n s ms w' R
    obtain ⟨_, g, _, _, hfiles⟩ := C131_right_types tool_loads way_sound R .plain stringScalars tightEnv tool_env
    obtain ⟨contents, d, frags, m, T₀, h1, h2, h3, h4, h5, h6, h7⟩ := hfiles Demo.qPath
      ((mem_filesOf _ _).1 (by decide +kernel))
    obtain ⟨hval, hu, hfa, hm⟩ := sound_file way_sound ((mem_filesOf _ _).1 (by decide +kernel)) h1 h2 h3
    rw [way_read] at h1
    cases h1
    obtain ⟨ts, t1, t2⟩ := h2
    obtain ⟨ts', t1', _, t2'⟩ := (C127_reads_iff Demo.parser "query Q { new color }" [Demo.toolQuery]).1 way_parse
    obtain rfl := C127_one_sequence t1 t1'
    have := C127_one_document t2 t2'
    cases this
    cases h4
    obtain rfl : frags = [] := by
      cases frags with
      | nil => rfl
      | cons e r => exact (way_scope h3 e.1 e.2 (by simp [AMap.get?])).elim
    refine ⟨g, m, h5, fun T hT v hv => ?_, blue_answers, fun hb => ?_⟩
    · have key := fun n => document_upgraded tool_valid later_valid later_safe hval hu hfa hm rfl hT n (hv n)
      exact h6.1 T (key 0).1 v (fun n => (key n).2)
    · obtain ⟨T, _, ha⟩ := (h7 way_exact).1 _ hb
      exact blue_unexpected (ha 1)

end Qlc
