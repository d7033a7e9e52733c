import Verif.Lemmas.Response
/-
What the printed declarations admit, compared with the alternatives of the tree.
-/
set_option autoImplicit false

namespace Qlc
open Spec

/-! ### Objects -/

theorem isObject_mono {α β : Type} {name : α → String} {name' : β → String} {ok : α → JVal → Prop}
    {ok' : β → JVal → Prop} {as : List α} {bs : List β}
    (h : List.Forall₂ (fun a b => name a = name' b ∧ ∀ x, ok a x → ok' b x) as bs) {v : JVal}
    (hv : IsObject name ok as v) : IsObject name' ok' bs v := by
  obtain ⟨fs, rfl, h1, h2, h3⟩ := hv
  refine ⟨fs, rfl, h1, ?_, ?_⟩
  · have e : as.map name = bs.map name' := by
      clear h2 h3
      induction h with
      | nil => rfl
      | cons a _ ih => rw [List.map_cons, List.map_cons, a.1, ih]
    intro key
    rw [h2, e]
  · intro b hb
    obtain ⟨a, ha, e, hok⟩ := forall₂_mem h b hb
    obtain ⟨x, hx, hx'⟩ := h3 a ha
    exact ⟨x, by rw [← e]; exact hx, hok x hx'⟩

/-! ### Equal bodies -/

theorem sameFields_forall : ∀ {fs gs : List IRField}, sameFields fs gs = true →
    List.Forall₂ (fun f g => sameField f g = true) fs gs
  | [], [], _ => .nil
  | [], _ :: _, h => by simp [sameFields] at h
  | _ :: _, [], h => by simp [sameFields] at h
  | f :: fs, g :: gs, h => by
    rw [sameFields, Bool.and_eq_true] at h
    exact .cons h.1 (sameFields_forall h.2)

theorem samePoss_forall : ∀ {ps qs : List Complex}, samePoss ps qs = true →
    List.Forall₂ (fun c d => sameComplex c d = true) ps qs
  | [], [], _ => .nil
  | [], _ :: _, h => by simp [samePoss] at h
  | _ :: _, [], h => by simp [samePoss] at h
  | f :: fs, g :: gs, h => by
    rw [samePoss, Bool.and_eq_true] at h
    exact .cons h.1 (samePoss_forall h.2)

theorem sameField_parts {f g : IRField} (h : sameField f g = true) :
    f.propName = g.propName ∧ f.last = g.last ∧ f.rest = g.rest ∧ sameType f.type g.type = true := by
  obtain ⟨_, _, _, _, _, _⟩ := f
  obtain ⟨_, _, _, _, _, _⟩ := g
  rw [sameField] at h
  simp only [Bool.and_eq_true, decide_eq_true_eq] at h
  exact ⟨h.1.1.1, h.1.1.2, h.1.2, h.2⟩

theorem typeValue_same {R : List Complex → JVal → Prop} {cfg : TsConfig} {env : String → JVal → Prop}
    {T : String} {a b : IRType} (h : sameType a b = true)
    (hR : ∀ ps qs, samePoss ps qs = true → ∀ v, R ps v ↔ R qs v) (v : JVal) :
    TypeValue R cfg env T a v ↔ TypeValue R cfg env T b v := by
  cases a with
  | complex ps =>
    cases b with
    | complex qs => rw [sameType] at h; exact hR _ _ h v
    | _ => simp [sameType] at h
  | enum n =>
    cases b with
    | enum m => rw [sameType, decide_eq_true_eq] at h; subst h; exact Iff.rfl
    | _ => simp [sameType] at h
  | scalar n =>
    cases b with
    | scalar m => rw [sameType, decide_eq_true_eq] at h; subst h; exact Iff.rfl
    | _ => simp [sameType] at h
  | typeName =>
    cases b with
    | typeName => exact Iff.rfl
    | _ => simp [sameType] at h

theorem modsSem_congr {ms : List Mod} {P Q : JVal → Prop} (h : ∀ v, P v ↔ Q v) (v : JVal) :
    modsSem ms P v ↔ modsSem ms Q v := by
  have : P = Q := funext (fun v => propext (h v))
  rw [this]

theorem fieldValue_same {R : List Complex → JVal → Prop} {cfg : TsConfig} {env : String → JVal → Prop}
    {T : String} {f g : IRField} (h : sameField f g = true)
    (hR : ∀ ps qs, samePoss ps qs = true → ∀ v, R ps v ↔ R qs v) (v : JVal) :
    FieldValue R cfg env T f v ↔ FieldValue R cfg env T g v := by
  obtain ⟨_, h2, h3, h4⟩ := sameField_parts h
  rw [fieldValue_mods, fieldValue_mods, h2, h3]
  exact modsSem_congr (typeValue_same h4 hR) v

theorem treeAdmits_same (cfg : TsConfig) (env : String → JVal → Prop) (k : Nat) :
    ∀ ps qs, samePoss ps qs = true → ∀ v, TreeAdmits cfg env k ps v ↔ TreeAdmits cfg env k qs v := by
  induction k with
  | zero => intro ps qs _ v; exact Iff.rfl
  | succ k ih =>
    intro ps qs h v
    have h2 := samePoss_forall h
    constructor
    · rintro ⟨T, fields, hm, hv⟩
      obtain ⟨⟨U, gs⟩, hm', hs⟩ := forall₂_mem_left h2 _ hm
      rw [sameComplex, Bool.and_eq_true, decide_eq_true_eq] at hs
      obtain ⟨rfl, hs⟩ := hs
      refine ⟨T, gs, hm', isObject_mono ?_ hv⟩
      exact (sameFields_forall hs).imp (fun f g h => ⟨(sameField_parts h).1, fun x => (fieldValue_same h ih x).1⟩)
    · rintro ⟨T, fields, hm, hv⟩
      obtain ⟨⟨U, gs⟩, hm', hs⟩ := forall₂_mem h2 _ hm
      rw [sameComplex, Bool.and_eq_true, decide_eq_true_eq] at hs
      obtain ⟨rfl, hs⟩ := hs
      refine ⟨U, gs, hm', isObject_mono ?_ hv⟩
      refine List.Forall₂.flip ?_
      exact (sameFields_forall hs).imp
        (fun f g h => ⟨(sameField_parts h).1.symm, fun x => (fieldValue_same h ih x).2⟩)

/-! ### Reading types back -/

/-- The tokens of a union of string literals. -/
def litToks : List String → List Tok
  | [] => []
  | [n] => [.lit n.toList]
  | n :: m :: rest => .lit n.toList :: .bar :: litToks (m :: rest)

theorem lex_lit (cs : List Char) : ∀ acc rest, (∀ c ∈ cs, c ≠ '"') →
    lex (.lit acc) (cs ++ '"' :: rest) = (lex .start rest).map (.lit (acc ++ cs) :: ·) := by
  induction cs with
  | nil => intro acc rest _; simp [lex]
  | cons c cs ih =>
    intro acc rest h
    have hc : c ≠ '"' := h c (by simp)
    simp only [List.cons_append, lex, if_neg hc]
    rw [ih _ _ (fun d hd => h d (by simp [hd]))]
    simp

theorem lex_literals : ∀ (ns : List String), ns ≠ [] → (∀ n ∈ ns, ∀ c ∈ n.toList, c ≠ '"') →
    ∀ rest, lex .start ((Flat.text (.literals ns)).toList ++ rest) =
      (lex .start rest).map (litToks ns ++ ·)
  | [], h, _, _ => absurd rfl h
  | [n], _, hn, rest => by
    have e : (Flat.text (.literals [n])).toList ++ rest = '"' :: (n.toList ++ '"' :: rest) := by
      show ("\"" ++ n ++ "\"").toList ++ rest = _
      simp
    have h1 : lexChar '"' = some ([], .lit []) := by decide
    rw [e, lexStart_ne h1, lex_lit _ _ _ (hn n (by simp))]
    simp [litToks, Option.map_map, Function.comp_def]
  | n :: m :: more, _, hn, rest => by
    have ih := lex_literals (m :: more) (by simp) (fun k hk => hn k (by simp [List.mem_cons.1 hk])) rest
    have e : (Flat.text (.literals (n :: m :: more))).toList ++ rest =
        '"' :: (n.toList ++ '"' :: (' ' :: '|' :: ' ' :: ((Flat.text (.literals (m :: more))).toList ++ rest))) := by
      have e1 : Flat.text (.literals (n :: m :: more)) =
        "\"" ++ n ++ "\"" ++ " | " ++ Flat.text (.literals (m :: more)) := rfl
      rw [e1]
      simp
    have h1 : lexChar '"' = some ([], .lit []) := by decide
    have h2 : lexChar ' ' = some ([], .start) := by decide
    have h3 : lexChar '|' = some ([.bar], .start) := by decide
    rw [e, lexStart_ne h1, lex_lit _ _ _ (hn n (by simp)), lexStart_ne h2, lexStart_ne h3, lexStart_ne h2, ih]
    simp [litToks, Option.map_map, Function.comp_def]

theorem parse_literals : ∀ (ns : List String), ns ≠ [] → ∀ (acc : Option TsTy) (st : List Frame),
    ∃ a c, parseToks (⟨acc, none⟩ :: st) (litToks ns) = some (⟨a, some c⟩ :: st) ∧
      ∀ (env : String → JVal → Prop) (x : JVal), TsAdmits env (joinUnion a c) x ↔
        (∃ t, acc = some t ∧ TsAdmits env t x) ∨ ∃ n ∈ ns, x = .str n
  | [], h, _, _ => absurd rfl h
  | [n], _, acc, st => by
    refine ⟨acc, .lit n, by simp [litToks, parseToks, parseTok], ?_⟩
    intro env x
    cases acc <;> simp [joinUnion, TsAdmits]
  | n :: m :: more, _, acc, st => by
    obtain ⟨a, c, h1, h2⟩ := parse_literals (m :: more) (by simp) (some (joinUnion acc (.lit n))) st
    refine ⟨a, c, ?_, ?_⟩
    · rw [litToks]
      simp only [parseToks, parseTok, Option.bind_some]
      simpa using h1
    · intro env x
      rw [h2]
      cases acc with
      | none => simp [joinUnion, TsAdmits]
      | some t => simp [joinUnion, TsAdmits, or_assoc]

/-- The text of a union of string literals admits exactly those strings. -/
theorem read_literals {ns : List String} (hne : ns ≠ []) (hn : ∀ n ∈ ns, ∀ c ∈ n.toList, c ≠ '"') :
    ∃ t, parseTs (Flat.text (.literals ns)) = some t ∧
      ∀ (env : String → JVal → Prop) (x : JVal), TsAdmits env t x ↔ ∃ n ∈ ns, x = .str n := by
  obtain ⟨a, c, h1, h2⟩ := parse_literals ns hne none []
  refine ⟨joinUnion a c, ?_, ?_⟩
  · have hl := lex_literals ns hne hn []
    rw [List.append_nil] at hl
    unfold parseTs
    rw [hl]
    simp [lex, h1]
  · intro env x
    rw [h2]
    simp

theorem isName_noQuote {s : String} (h : IsName s) : ∀ c ∈ s.toList, c ≠ '"' := by
  rintro c hc rfl
  rcases h.2 _ hc with h | h
  · exact absurd h (by decide)
  · exact absurd h (by decide)

/-- What a property admits. -/
def PropOk (sc : String → JVal → Prop) (p : TsProp) (x : JVal) : Prop :=
  ∃ t, parseTs p.typeText = some t ∧ TsAdmits sc t x

theorem propOk_named {sc : String → JVal → Prop} {p : TsProp} (h : IsTypeName p.flat.text) (x : JVal) :
    PropOk sc p x ↔ modsSem (p.last :: p.rest) (sc p.flat.text) x := by
  unfold PropOk TsProp.typeText
  rw [C59_modifier_text_parses _ _ _ h]
  simp only [Option.some.injEq, exists_eq_left']
  rw [tsAdmits_wrapMods]
  rfl

theorem propOk_literals {sc : String → JVal → Prop} {p : TsProp} {ls : List String}
    (h : p.flat = .literals ls) (h1 : p.last = .none) (h2 : p.rest = []) (hne : ls ≠ [])
    (hn : ∀ n ∈ ls, IsName n) (x : JVal) : PropOk sc p x ↔ ∃ n ∈ ls, x = .str n := by
  obtain ⟨t, ht, hx⟩ := read_literals hne (fun n hm => isName_noQuote (hn n hm))
  unfold PropOk TsProp.typeText
  rw [h, h1, h2]
  have : propTypeDef [] .none (Flat.literals ls).text = (Flat.literals ls).text := rfl
  rw [this, ht]
  simp only [Option.some.injEq, exists_eq_left']
  exact hx sc x

/-! ### The declarations of a file -/

/-- What the names of a file's declarations look like. -/
structure NamesOk (main : String) (decls : List TsDecl) : Prop where
  closed : ∀ n props, TsDecl.object n props ∈ decls → ∀ p ∈ props, ∀ m, p.flat = .declared m →
    m ∈ decls.map TsDecl.name
  typeName : ∀ d ∈ decls, IsTypeName d.name
  generated : ∀ d ∈ decls, Generated main d.name

theorem scope_own {decls : List TsDecl} {D env : String → JVal → Prop} {n : String}
    (h : n ∈ decls.map TsDecl.name) : scope decls D env n = D n := by
  funext v; unfold scope; rw [if_pos h]

theorem scope_other {main : String} {decls : List TsDecl} (ho : NamesOk main decls)
    {D env : String → JVal → Prop} {n : String} (h : ¬ Generated main n) : scope decls D env n = env n := by
  funext v
  unfold scope
  rw [if_neg]
  intro hm
  obtain ⟨d, hd, rfl⟩ := List.mem_map.1 hm
  exact h (ho.generated d hd)

/-- One printed property admits what its field admits; for `__typename`, the literals. -/
theorem prop_admits {cfg : TsConfig} {main : String} {decls : List TsDecl} (ho : NamesOk main decls)
    {env : String → JVal → Prop} {k : Nat} {types : List String} {fld : IRField} {p : TsProp}
    {n : String} {props : List TsProp} (hd : TsDecl.object n props ∈ decls) (hp : p ∈ props)
    (h : PropIs (Renders cfg decls k) cfg types fld p) (hT : ∀ T ∈ types, IsName T) (hne : types ≠ [])
    (hr : match fld.type with
      | .complex _ => IsName fld.propName
      | .enum n => IsTypeName n ∧ ¬ Generated main n
      | .scalar s => IsTypeName (scalarFlat cfg s).text ∧ ¬ Generated main (scalarFlat cfg s).text
      | .typeName => fld.last = .none ∧ fld.rest = []) (x : JVal) :
    (fld.type = .typeName ∧ (PropOk (scope decls (Inhabits decls env k) env) p x ↔
      ∃ T ∈ types, x = .str T)) ∨
    (fld.type ≠ .typeName ∧ ∃ B : JVal → Prop,
      (PropOk (scope decls (Inhabits decls env k) env) p x ↔ modsSem (fld.last :: fld.rest) B x) ∧
      match fld.type with
      | .complex sub => ∃ m, Renders cfg decls k m sub ∧ B = Inhabits decls env k m
      | .enum n => B = env n
      | .scalar s => B = env (scalarFlat cfg s).text
      | .typeName => False) := by
  obtain ⟨_, _, _, h4, h5, h6⟩ := h
  cases hty : fld.type with
  | complex sub =>
    rw [hty] at h6
    obtain ⟨m, hm, hR⟩ := h6
    have hmd := ho.closed n props hd p hp m hm
    have htn : IsTypeName p.flat.text := by
      rw [hm]
      obtain ⟨d, hd', e⟩ := List.mem_map.1 hmd
      have := ho.typeName d hd'
      rw [e] at this
      exact this
    right
    refine ⟨by simp, Inhabits decls env k m, ?_, m, hR, rfl⟩
    rw [propOk_named htn, h4, h5]
    have : p.flat.text = m := by rw [hm]; rfl
    rw [this, scope_own hmd]
  | enum e =>
    rw [hty] at h6 hr
    have h6 : p.flat = _ := h6
    have htx : p.flat.text = e := by rw [h6]; rfl
    right
    refine ⟨by simp, env e, ?_, rfl⟩
    rw [propOk_named (by rw [htx]; exact hr.1), h4, h5, htx, scope_other ho hr.2]
  | scalar s =>
    rw [hty] at h6 hr
    have h6 : p.flat = _ := h6
    have htx : p.flat.text = (scalarFlat cfg s).text := by rw [h6]
    right
    refine ⟨by simp, env (scalarFlat cfg s).text, ?_, rfl⟩
    rw [propOk_named (by rw [htx]; exact hr.1), h4, h5, htx, scope_other ho hr.2]
  | typeName =>
    rw [hty] at h6 hr
    obtain ⟨ls, hl, _, hls⟩ := h6
    left
    refine ⟨rfl, ?_⟩
    rw [propOk_literals hl (h4.trans hr.1) (h5.trans hr.2) ?_ (fun m hm => hT m ((hls m).1 hm))]
    · simp only [hls]
    · rintro rfl
      obtain ⟨T, hT'⟩ := List.exists_mem_of_ne_nil _ hne
      have := (hls T).2 hT'
      simp at this

theorem sameBodies_sub {ps : List Complex} (h : SameBodies ps) {qs : List Complex} (hu : Under ps qs) :
    SameBodies qs := fun rs hr => h rs (Under.trans hu hr)

theorem readable_sub {cfg : TsConfig} {main : String} {ps : List Complex} (h : Readable cfg main ps)
    {qs : List Complex} (hu : Under ps qs) : Readable cfg main qs := fun rs hr => h rs (Under.trans hu hr)

theorem oneTypename_sub {ps : List Complex} (h : OneTypename ps) {qs : List Complex} (hu : Under ps qs) :
    OneTypename qs := fun rs hr => h rs (Under.trans hu hr)

theorem forall₂_trans {α β γ : Type} {R : α → β → Prop} {S : β → γ → Prop} {U : α → γ → Prop}
    {as : List α} {bs : List β} {cs : List γ}
    (h1 : List.Forall₂ R as bs) (h2 : List.Forall₂ S bs cs)
    (h : ∀ a ∈ as, ∀ b ∈ bs, ∀ c ∈ cs, R a b → S b c → U a c) : List.Forall₂ U as cs := by
  induction h1 generalizing cs with
  | nil => cases h2; exact .nil
  | cons r _ ih =>
    cases h2 with
    | cons s h2 =>
      refine .cons (h _ (by simp) _ (by simp) _ (by simp) r s) (ih h2 ?_)
      intro a ha b hb c hc
      exact h a (by simp [ha]) b (by simp [hb]) c (by simp [hc])

theorem typesAreNames {cfg : TsConfig} {main : String} {ps : List Complex} (h : Readable cfg main ps)
    {T : String} (hT : T ∈ ps.map Complex.name) : IsName T := by
  obtain ⟨⟨T', fields⟩, hm, rfl⟩ := List.mem_map.1 hT
  exact (h ps .refl T' fields hm).1

theorem resolves_mem {decls : List TsDecl} {n : String} {objs : List (String × List TsProp)}
    (h : Resolves decls n objs) {o : String × List TsProp} (ho : o ∈ objs) :
    TsDecl.object o.1 o.2 ∈ decls := by
  rcases h with ⟨props, hm, rfl⟩ | ⟨_, hall⟩
  · rw [List.mem_singleton] at ho; subst ho; exact hm
  · exact hall o ho

theorem readable_field {cfg : TsConfig} {main : String} {ps : List Complex} (hread : Readable cfg main ps)
    {c : Complex} (hc : c ∈ ps) {g : IRField} (hg : g ∈ c.fields) : match g.type with
      | .complex _ => IsName g.propName
      | .enum n => IsTypeName n ∧ ¬ Generated main n
      | .scalar s => IsTypeName (scalarFlat cfg s).text ∧ ¬ Generated main (scalarFlat cfg s).text
      | .typeName => g.last = .none ∧ g.rest = [] := by
  obtain ⟨T, fields⟩ := c
  exact (hread ps .refl T fields hc).2 g hg

/-- Values of the tree inhabit the printed type. -/
theorem tree_inhabits {cfg : TsConfig} {main : String} {decls : List TsDecl} (ho : NamesOk main decls)
    (env : String → JVal → Prop) (k : Nat) : ∀ (n : String) (ps : List Complex),
    Renders cfg decls k n ps → Readable cfg main ps → SameBodies ps → ∀ v,
    TreeAdmits cfg env k ps v → Inhabits decls env k n v := by
  induction k with
  | zero => intro n ps _ _ _ v h; exact h
  | succ k ih =>
    rintro n ps ⟨alts, hres, hcov, _, hall⟩ hread hsame v ⟨T, fields, hm, hv⟩
    obtain ⟨a, ha, hTa⟩ := (hcov T).1 (List.mem_map.2 ⟨_, hm, rfl⟩)
    obtain ⟨hrep, _, hsp, hF⟩ := hall a ha
    have hoa : (a.name, a.props) ∈ alts.map (fun a => (a.name, a.props)) := List.mem_map.2 ⟨a, ha, rfl⟩
    have hdecl := resolves_mem hres hoa
    refine ⟨_, hres, _, hoa, isObject_mono ?_ hv⟩
    have hbody : sameFields fields a.rep.fields = true := by
      have hs := hsp _ hm hTa
      rcases hr : a.rep with ⟨U, gs⟩
      rw [hr] at hrep hs
      exact hsame ps .refl T fields U gs hm hrep hs
    refine forall₂_trans (sameFields_forall hbody) hF ?_
    intro f hf g hg p hp hfg hpi
    refine ⟨(sameField_parts hfg).1.trans hpi.1.symm, ?_⟩
    intro x hx
    rw [fieldValue_same hfg (treeAdmits_same cfg env k)] at hx
    have hrg := readable_field hread hrep hg
    have hTn : ∀ T ∈ a.types, IsName T := fun T hT => typesAreNames hread ((hcov T).2 ⟨a, ha, hT⟩)
    rw [fieldValue_mods] at hx
    rcases prop_admits ho (env := env) hdecl hp hpi hTn (List.ne_nil_of_mem hTa) hrg x with
      ⟨hty, hiff⟩ | ⟨hty, B, hiff, hB⟩
    · rw [hty] at hrg hx
      rw [hrg.1, hrg.2] at hx
      exact hiff.2 ⟨T, hTa, hx⟩
    · refine hiff.2 (modsSem_mono _ ?_ x hx)
      intro y hy
      cases hg' : g.type with
      | complex sub =>
        rw [hg'] at hB hy
        obtain ⟨m, hR, rfl⟩ := hB
        rcases hr : a.rep with ⟨U, gs⟩
        rw [hr] at hrep hg
        have hu : Under ps sub := .step .refl hrep hg hg'
        exact ih m sub hR (readable_sub hread hu) (sameBodies_sub hsame hu) y hy
      | enum e => rw [hg'] at hB hy; rw [hB]; exact hy
      | scalar s => rw [hg'] at hB hy; rw [hB]; exact hy
      | typeName => exact absurd hg' hty
theorem object_unique {decls : List TsDecl} (hn : (decls.map TsDecl.name).Nodup) {d e : TsDecl}
    (hd : d ∈ decls) (he : e ∈ decls) (h : d.name = e.name) : d = e :=
  List.inj_on_of_nodup_map hn hd he h

theorem resolves_unique {decls : List TsDecl} (hn : (decls.map TsDecl.name).Nodup) {n : String}
    {as bs : List (String × List TsProp)} (ha : Resolves decls n as) (hb : Resolves decls n bs) : as = bs := by
  rcases ha with ⟨ps, hp, rfl⟩ | ⟨ha, ha'⟩ <;> rcases hb with ⟨qs, hq, rfl⟩ | ⟨hb, hb'⟩
  · have := object_unique hn hp hq rfl
    cases this; rfl
  · have := object_unique hn hp hb rfl
    cases this
  · have := object_unique hn ha hq rfl
    cases this
  · have := object_unique hn ha hb rfl
    injection this with _ e
    clear ha hb
    induction as generalizing bs with
    | nil => cases bs with
      | nil => rfl
      | cons => simp at e
    | cons a as ih =>
      cases bs with
      | nil => simp at e
      | cons b bs =>
        rw [List.map_cons, List.map_cons, List.cons.injEq] at e
        obtain ⟨a1, a2⟩ := a
        obtain ⟨b1, b2⟩ := b
        have h1 := object_unique hn (ha' (a1, a2) (by simp)) (hb' (b1, b2) (by simp)) e.1
        injection h1 with h2 h3
        dsimp only at h2 h3
        subst h2 h3
        rw [ih (fun o ho => ha' o (by simp [ho])) (fun o ho => hb' o (by simp [ho])) e.2]

/-- What inhabits the printed type is a value of the tree. -/
theorem inhabits_tree {cfg : TsConfig} {main : String} {decls : List TsDecl} (ho : NamesOk main decls)
    (hn : (decls.map TsDecl.name).Nodup)
    (env : String → JVal → Prop) (k : Nat) : ∀ (n : String) (ps : List Complex),
    Renders cfg decls k n ps → Readable cfg main ps → SameBodies ps → OneTypename ps → ∀ v,
    Inhabits decls env k n v → TreeAdmits cfg env k ps v := by
  induction k with
  | zero => intro n ps _ _ _ _ v h; exact h
  | succ k ih =>
    rintro n ps ⟨alts, hres, hcov, _, hall⟩ hread hsame hone v ⟨objs, hres', o, hoo, fs, rfl, hkeys, hks, hps⟩
    obtain rfl := resolves_unique hn hres' hres
    obtain ⟨a, ha, rfl⟩ := List.mem_map.1 hoo
    obtain ⟨hrep, hrepT, hsp, hF⟩ := hall a ha
    have hdecl := resolves_mem hres hoo
    have hTn : ∀ T ∈ a.types, IsName T := fun T hT => typesAreNames hread ((hcov T).2 ⟨a, ha, hT⟩)
    have huniq : ∀ key x y, (key, x) ∈ fs → (key, y) ∈ fs → x = y := by
      intro key x y hx hy
      have := List.inj_on_of_nodup_map hkeys hx hy rfl
      exact (Prod.mk.inj this).2
    -- the object type the value stands for
    have hT : ∃ T ∈ a.types, ∀ g ∈ a.rep.fields, g.type = .typeName → (g.propName, JVal.str T) ∈ fs := by
      by_cases hex : ∃ g ∈ a.rep.fields, g.type = .typeName
      · obtain ⟨g, hg, hgt⟩ := hex
        obtain ⟨p, hp, hpi⟩ := forall₂_mem_left hF g hg
        obtain ⟨x, hx, hx'⟩ := hps p hp
        rcases prop_admits ho (env := env) hdecl hp hpi hTn (List.ne_nil_of_mem hrepT)
          (readable_field hread hrep hg) x with ⟨_, hiff⟩ | ⟨hty, _⟩
        · obtain ⟨T, hT, rfl⟩ := hiff.1 hx'
          refine ⟨T, hT, ?_⟩
          intro g' hg' hgt'
          rcases hr : a.rep with ⟨U, gs⟩
          rw [hr] at hrep hg hg'
          rw [hone ps .refl U gs hrep g' hg' g hg hgt' hgt, ← hpi.1]
          exact hx
        · exact absurd hgt hty
      · exact ⟨a.rep.name, hrepT, fun g hg hgt => absurd ⟨g, hg, hgt⟩ hex⟩
    obtain ⟨T, hTa, hlit⟩ := hT
    obtain ⟨⟨T', fields⟩, hm, rfl⟩ := List.mem_map.1 ((hcov T).2 ⟨a, ha, hTa⟩)
    have hbody : sameFields fields a.rep.fields = true := by
      have hs := hsp _ hm hTa
      rcases hr : a.rep with ⟨U, gs⟩
      rw [hr] at hrep hs
      exact hsame ps .refl _ fields U gs hm hrep hs
    have hB := sameFields_forall hbody
    refine ⟨T', fields, hm, fs, rfl, hkeys, ?_, ?_⟩
    · intro key
      rw [hks]
      have e1 : fields.map IRField.propName = a.rep.fields.map IRField.propName := by
        generalize a.rep.fields = gs at hB
        clear * - hB
        induction hB with
        | nil => rfl
        | cons h _ ih => rw [List.map_cons, List.map_cons, (sameField_parts h).1, ih]
      have e2 : a.props.map TsProp.name = a.rep.fields.map IRField.propName := by
        generalize a.rep.fields = gs at hF
        generalize a.props = qs at hF
        clear * - hF
        induction hF with
        | nil => rfl
        | cons h _ ih => rw [List.map_cons, List.map_cons, h.1, ih]
      rw [e1, e2]
    · intro f hf
      obtain ⟨g, hg, hfg⟩ := forall₂_mem_left hB f hf
      obtain ⟨p, hp, hpi⟩ := forall₂_mem_left hF g hg
      obtain ⟨x, hx, hx'⟩ := hps p hp
      have hrg := readable_field hread hrep hg
      rw [(sameField_parts hfg).1, ← hpi.1]
      refine ⟨x, hx, ?_⟩
      rw [fieldValue_same hfg (treeAdmits_same cfg env k), fieldValue_mods]
      rcases prop_admits ho (env := env) hdecl hp hpi hTn (List.ne_nil_of_mem hrepT) hrg x with
        ⟨hty, hiff⟩ | ⟨hty, B, hiff, hBB⟩
      · have := hlit g hg hty
        rw [hpi.1] at hx
        rw [huniq _ _ _ hx this, hty]
        rw [hty] at hrg
        rw [hrg.1, hrg.2]
        rfl
      · refine modsSem_mono _ ?_ x (hiff.1 hx')
        intro y hy
        cases hg' : g.type with
        | complex sub =>
          rw [hg'] at hBB
          obtain ⟨m, hR, rfl⟩ := hBB
          rcases hr : a.rep with ⟨U, gs⟩
          rw [hr] at hrep hg
          have hu : Under ps sub := .step .refl hrep hg hg'
          exact ih m sub hR (readable_sub hread hu) (sameBodies_sub hsame hu) (oneTypename_sub hone hu) y hy
        | enum e => rw [hg'] at hBB; rw [hBB] at hy; exact hy
        | scalar s => rw [hg'] at hBB; rw [hBB] at hy; exact hy
        | typeName => exact absurd hg' hty

/-! ### Names -/

theorem isName_ident {s : String} (h : IsName s) : ∀ c ∈ s.toList, isIdentChar c = true := by
  intro c hc
  unfold isIdentChar
  rcases h.2 c hc with h | h <;> simp [h]

theorem isTypeName_of_isName {s : String} (h : IsName s) (hn : s ≠ "null") : IsTypeName s :=
  ⟨h.1, isName_ident h, hn⟩

theorem isTypeName_under {main part : String} (h : IsTypeName main)
    (hp : ∀ c ∈ part.toList, isIdentChar c = true) : IsTypeName (main ++ "_" ++ part) := by
  refine ⟨by simp, ?_, ?_⟩
  · intro c hc
    rw [String.toList_append, String.toList_append, List.mem_append, List.mem_append] at hc
    rcases hc with (hc | hc) | hc
    · exact h.2.1 c hc
    · have : c = '_' := by simpa using hc
      subst this; decide
    · exact hp c hc
  · intro e
    have : '_' ∈ (main ++ "_" ++ part).toList := by simp
    rw [e] at this
    exact absurd this (by decide)

/-- The names declared for a position are single type names. -/
theorem coll_typeNames (cfg : TsConfig) (n : Nat) : ∀ (ps : List Complex), sizeOf ps ≤ n →
    (∀ qs, Under ps qs → ∀ T fields, Complex.mk T fields ∈ qs → IsName T ∧ ∀ fld ∈ fields,
      (∃ sub, fld.type = .complex sub) → IsName fld.propName) →
    ∀ (main : String), IsTypeName main → ∀ d ∈ collDecls cfg ps main, IsTypeName d.name := by
  induction n with
  | zero => intro ps hs; exfalso; cases ps <;> simp at hs
  | succ n ih =>
    intro ps hs hnm main hmain d hd
    rcases mem_collDecls.1 hd with ⟨b, hb, hd⟩ | ⟨_, rfl⟩
    · have hpath : IsTypeName b.path := by
        cases hu : isUnion ps with
        | false => rw [bodies_single hu b hb]; exact hmain
        | true =>
          rcases (bodies_union hu).1 b hb with ⟨e, _⟩ | e
          · rw [e]
            have hm := (mem_bodies hb).1
            rcases hr : b.rep with ⟨T, fields⟩
            rw [hr] at hm
            exact isTypeName_under hmain (isName_ident (hnm ps .refl T fields hm).1)
          · rw [e, other_eq]
            exact isTypeName_under hmain (by decide)
      unfold Body.decls at hd
      rcases mem_objDecls.1 hd with ⟨fld, hf, sub, hty, hd⟩ | rfl
      · have hm := (mem_bodies hb).1
        obtain ⟨rep, lits, path⟩ := b
        obtain ⟨T, fields⟩ := rep
        have := sizeOf_sub hm hf hty
        refine ih sub (by omega) (fun qs h => hnm qs (under_head hm hf hty h)) _ ?_ d hd
        exact isTypeName_under hpath (isName_ident ((hnm ps .refl T fields hm).2 fld hf ⟨sub, hty⟩))
      · exact hpath
    · exact hmain

theorem generated_of_extends {main x : String} (h : Extends main x) : Generated main x := by
  obtain ⟨s, e, rfl | ⟨s', rfl⟩⟩ := h
  · left; apply String.toList_inj.1; simpa using e
  · right
    refine ⟨String.ofList s', ?_⟩
    apply String.toList_inj.1
    rw [e]; simp

/-- The declarations made for an operation have usable names. -/
theorem namesOk_of_compile {ω : Hash} {cfg : TsConfig} {schema : Schema} {op : Operation} {c : Compile}
    (hc : compileIr ω op cfg schema = .ok c) (hmain : IsTypeName op.name)
    (hr : Readable cfg op.name op.collection) : NamesOk op.name (tsFile ω cfg schema op).decls := by
  obtain ⟨_, _, h3, _⟩ := compileIr_agrees hc
  refine ⟨?_, ?_, ?_⟩
  · intro n props hd p hp m hm
    refine h3.1 m ?_
    unfold refsIn
    rw [List.mem_flatMap]
    refine ⟨_, hd, ?_⟩
    simp only [List.mem_flatMap]
    exact ⟨p, hp, by rw [hm]; simp⟩
  · intro d hd
    refine coll_typeNames cfg _ op.collection (Nat.le_refl _) ?_ op.name hmain d hd
    intro qs hu T fields hm
    refine ⟨(hr qs hu T fields hm).1, ?_⟩
    rintro fld hf ⟨sub, hty⟩
    have := (hr qs hu T fields hm).2 fld hf
    rw [hty] at this
    exact this
  · intro d hd
    exact generated_of_extends (coll_extends cfg _ op.collection (Nat.le_refl _) op.name d hd)

/-- Where the names of the tree come from. -/
theorem readable_of_tree {doc : JSchema} {schema : Schema} {frags : Frags} {cfg : TsConfig} {main : String}
    (hv : ValidDoc doc) (hs : Schema.ofJson doc = .ok schema) {ps : List Complex}
    (hT : ∀ P, ∀ T ∈ objectTypes doc P, IsName T)
    (hkf : ∀ name fd, AMap.get? frags name = some fd → ∀ k ∈ compositeKeys fd.items, IsName k)
    (hout : ∀ n, Outside cfg doc n → IsTypeName n ∧ ¬ Generated main n)
    (htx : ∀ n, ∃ P sets, TreeIs schema (collectorX schema frags) n P sets ps ∧
      ∀ s ∈ sets, ∀ k ∈ compositeKeys s, IsName k)
    (ht : ∀ n, ∃ P sets, TreeIs schema (CollMany schema frags) n P sets ps) :
    Readable cfg main ps := by
  intro qs hu T fields hm
  obtain ⟨P, sets, h⟩ := tree_under hu ht 1
  have hTP : T ∈ possibleTypes schema P := (h.2.1 T).1 (List.mem_map.2 ⟨_, hm, rfl⟩)
  rw [loaded_possible hs] at hTP
  refine ⟨hT P T hTP, ?_⟩
  intro fld hf
  obtain ⟨L, hL, _, slots, _, _, hF⟩ := h.2.2 T fields hm
  obtain ⟨s, _, c, rest, e, h1, _, _, h4, h5, h6⟩ := forall₂_mem hF fld hf
  have hcs : c ∈ sameSlot L s.1 s.2 := by rw [e]; simp
  have hcL := (List.mem_filter.1 hcs).1
  obtain ⟨_, P₀, _, hfo⟩ := collMany_origin (applies := fun _ => True) hv hs
    (fun _ _ _ _ _ => trivial) hL hTP (fun _ _ _ _ => trivial) c hcL
  have horig := loaded_field hs hv.reserved hfo
  cases hty : fld.type with
  | complex sub =>
    exact keys_of_tree (Q := IsName) hkf htx qs hu T fields hm fld hf ⟨sub, hty⟩
  | enum n =>
    rw [hty] at h6
    obtain ⟨hd, rfl⟩ := h6
    rcases horig with ⟨_, e'⟩ | ⟨_, j, hl, hj⟩
    · rw [e'] at hd; simp [SField.newTypeName, FieldType.newTypeName] at hd
    · obtain ⟨k, t, _, _, hk, hkn, _, hn, hdef, _⟩ := loaded_declared hv hl hj
      refine hout _ (.inr (.inl ?_))
      rcases def_of_kind hk hdef with ⟨_, hx, _⟩ | ⟨_, hx⟩ | ⟨rfl, _⟩
      · rw [hd] at hx; simp [FieldTypeDef.isComplex] at hx
      · rw [hd] at hx; simp at hx
      · rw [hn]; exact hkn
  | scalar sc =>
    rw [hty] at h6
    have hd : c.field.type.definition = .scalar sc := h6
    rcases horig with ⟨_, e'⟩ | ⟨_, j, hl, hj⟩
    · rw [e'] at hd; simp [SField.newTypeName, FieldType.newTypeName] at hd
    · obtain ⟨k, t, _, _, hk, hkn, _, hn, hdef, _⟩ := loaded_declared hv hl hj
      refine hout _ ?_
      rcases def_of_kind hk hdef with ⟨_, hx, _⟩ | ⟨rfl, hx⟩ | ⟨_, hx⟩
      · rw [hd] at hx; simp [FieldTypeDef.isComplex] at hx
      · rw [hd] at hx
        injection hx with hx
        have hcustom : ∀ m, sc = .custom m → m = baseName t := by
          rintro m rfl
          unfold ScalarType.ofName at hx
          repeat' split at hx
          all_goals injection hx
        cases sc with
        | custom m =>
          have := hcustom m rfl
          subst this
          unfold Outside scalarFlat
          cases cfg.bottomTypeConfig with
          | defaultBottomType => left; simp [Flat.text]
          | realName => exact .inr (.inr ⟨_, hkn, rfl⟩)
          | realNameWithPrefix p => exact .inr (.inr ⟨_, hkn, rfl⟩)
        | _ => left; simp [scalarFlat, Flat.text]
      · rw [hd] at hx; simp at hx
  | typeName =>
    rw [hty] at h6
    have hd : c.field.type.definition = .typeName := h6
    rw [h4, h5]
    rcases horig with ⟨_, e'⟩ | ⟨_, j, hl, hj⟩
    · rw [e']; exact ⟨rfl, rfl⟩
    · obtain ⟨k, t, _, _, hk, hkn, _, hn, hdef, _⟩ := loaded_declared hv hl hj
      rcases def_of_kind hk hdef with ⟨_, hx, _⟩ | ⟨_, hx⟩ | ⟨_, hx⟩
      · rw [hd] at hx; simp [FieldTypeDef.isComplex] at hx
      · rw [hd] at hx; simp at hx
      · rw [hd] at hx; simp at hx

end Qlc
