import Verif.Lemmas.Grammar
import Verif.Spec.Globals
/-
Helper lemmas for C75 and C76: how a generated file is read back.
-/
set_option autoImplicit false

namespace Qlc
open Spec

/-! ### Reading part of a text -/

/-- Between two statements or members, the text `s` leads from mode `m` to mode `m'` and completes the
statements `ss`. -/
def Reads (m : Mode) (s : String) (ss : List TsStmt) (m' : Mode) : Prop :=
  ∃ ts pcs, Lexes .start s.toList ts .start ∧
    (∀ rest, pieces [] (ts ++ rest) = (pieces [] rest).map (pcs ++ ·)) ∧
    ∀ rest, readPieces m (pcs ++ rest) = (readPieces m' rest).map (ss ++ ·)

theorem Reads.skip {m : Mode} {s : String} (h : Lexes .start s.toList [] .start) : Reads m s [] m :=
  ⟨[], [], h, by simp, by simp⟩

theorem Reads.append {m m' m'' : Mode} {a b : String} {sa sb : List TsStmt} (ha : Reads m a sa m')
    (hb : Reads m' b sb m'') : Reads m (a ++ b) (sa ++ sb) m'' := by
  obtain ⟨ta, pa, a1, a2, a3⟩ := ha
  obtain ⟨tb, pb, b1, b2, b3⟩ := hb
  refine ⟨ta ++ tb, pa ++ pb, by rw [String.toList_append]; exact a1.append b1, ?_, ?_⟩
  · intro rest
    rw [List.append_assoc, a2, b2]
    simp [Option.map_map, Function.comp_def]
  · intro rest
    rw [List.append_assoc, a3, b3]
    simp [Option.map_map, Function.comp_def]

theorem Reads.after {m m' : Mode} {a b : String} {ss : List TsStmt} (ha : Lexes .start a.toList [] .start)
    (hb : Reads m b ss m') : Reads m (a ++ b) ss m' := by
  simpa using (Reads.skip (m := m) ha).append hb

theorem Reads.before {m m' : Mode} {a b : String} {ss : List TsStmt} (ha : Reads m a ss m')
    (hb : Lexes .start b.toList [] .start) : Reads m (a ++ b) ss m' := by
  simpa using ha.append (Reads.skip hb)

theorem pieces_cut : ∀ (ts acc rest : List Tk) (c : Char), (∀ t ∈ ts, t ∉ cutters) → Tk.p c ∈ cutters →
    pieces acc (ts ++ .p c :: rest) = (pieces [] rest).map ((acc ++ ts, c) :: ·)
  | [], acc, rest, c, _, hc => by
    simp only [cutters, List.mem_cons, Tk.p.injEq, List.not_mem_nil, or_false] at hc
    rcases hc with rfl | rfl | rfl <;> simp [pieces]
  | t :: ts, acc, rest, c, ht, hc => by
    have h := ht t (by simp)
    simp only [cutters, List.mem_cons, List.not_mem_nil, or_false, not_or] at h
    have ih := pieces_cut ts (acc ++ [t]) rest c (fun u hu => ht u (by simp [hu])) hc
    rw [List.cons_append]
    simp only [pieces, if_neg h.1, if_neg h.2.1, if_neg h.2.2]
    rw [ih]
    simp

theorem readPieces_cons (m : Mode) (pc : List Tk × Char) (pcs : List (List Tk × Char)) :
    readPieces m (pc :: pcs) = match readPiece m pc with
      | none => none
      | some (ss, m') => (readPieces m' pcs).map (ss ++ ·) := by
  cases m <;> rfl

theorem Reads.piece {m m' : Mode} {s : String} {ss : List TsStmt} {ts : List Tk} {c : Char}
    (h : Lexes .start s.toList (ts ++ [.p c]) .start) (ht : ∀ t ∈ ts, t ∉ cutters) (hc : Tk.p c ∈ cutters)
    (hr : readPiece m (ts, c) = some (ss, m')) : Reads m s ss m' := by
  refine ⟨_, [(ts, c)], h, ?_, ?_⟩
  · intro rest
    rw [List.append_assoc]
    show pieces [] (ts ++ .p c :: rest) = _
    rw [pieces_cut ts [] rest c ht hc]
    simp
  · intro rest
    show readPieces m ((ts, c) :: rest) = _
    rw [readPieces_cons, hr]

theorem Reads.parse {s : String} {ss : List TsStmt} (h : Reads .top s ss .top) : parseModule s = some ss := by
  obtain ⟨ts, pcs, h1, h2, h3⟩ := h
  have e1 := tokens_lexTo _ _ _ _ [] h1
  rw [List.append_nil] at e1
  have e2 := h2 []
  have e3 := h3 []
  rw [List.append_nil] at e2 e3
  unfold parseModule
  rw [e1]
  simp only [tokens, Option.map_some, List.append_nil, Option.bind_some, e2, pieces, e3, readPieces]

/-! ### Names -/

theorem isIdentChar_of {c : Char} (h : c.isAlphanum = true ∨ c = '_' ∨ c = '$') : isIdentChar c = true := by
  rcases h with h | rfl | rfl
  · simp [isIdentChar, h]
  · decide
  · decide

theorem isIdent_ne {s : List Char} (h : IsIdent s) : s ≠ [] := by
  rintro rfl
  obtain ⟨⟨c, h, _⟩, _⟩ := h
  simp at h

theorem isIdent_chars {s : List Char} (h : IsIdent s) : ∀ c ∈ s, isIdentChar c = true :=
  fun c hc => isIdentChar_of (h.2 c hc)

theorem splitDot_plain : ∀ (s : List Char), '.' ∉ s → splitDot s = [s]
  | [], _ => rfl
  | c :: cs, h => by
    have hc : c ≠ '.' := by rintro rfl; simp at h
    have ih := splitDot_plain cs (fun h' => h (by simp [h']))
    simp [splitDot, hc, ih]

theorem isIdent_noDot {s : List Char} (h : IsIdent s) : '.' ∉ s := by
  intro hd
  rcases h.2 _ hd with h | h | h
  · exact absurd h (by decide)
  · exact absurd h (by decide)
  · exact absurd h (by decide)

theorem Spec.IsBinding.ref {s : String} (h : IsBinding s) : IsTypeRef s :=
  ⟨by rw [splitDot_plain _ (isIdent_noDot h.1)]; simpa using h.1, h.2.1⟩

theorem splitDot_chars : ∀ (s : List Char), (∀ q ∈ splitDot s, ∀ c ∈ q, isIdentChar c = true) →
    ∀ c ∈ s, isIdentChar c = true
  | [], _ => by simp
  | d :: ds, h => by
    by_cases hd : d = '.'
    · subst hd
      have ih := splitDot_chars ds (fun q hq => h q (by simp [splitDot, hq]))
      intro c hc
      rcases List.mem_cons.1 hc with rfl | hc
      · decide
      · exact ih c hc
    · cases hs : splitDot ds with
      | nil =>
        exfalso
        cases ds with
        | nil => simp [splitDot] at hs
        | cons x xs =>
          rw [splitDot] at hs
          split at hs
          · simp at hs
          · split at hs <;> simp at hs
      | cons p ps =>
        have e : splitDot (d :: ds) = (d :: p) :: ps := by rw [splitDot, if_neg hd, hs]
        have ih := splitDot_chars ds (by
          rw [hs]
          intro q hq
          rcases List.mem_cons.1 hq with rfl | hq
          · intro c hc; exact h (d :: q) (by rw [e]; simp) c (by simp [hc])
          · exact h q (by rw [e]; simp [hq]))
        intro c hc
        rcases List.mem_cons.1 hc with rfl | hc
        · exact h (c :: p) (by rw [e]; simp) c (by simp)
        · exact ih c hc

theorem Spec.IsTypeRef.typeName {s : String} (h : IsTypeRef s) : IsTypeName s := by
  refine ⟨?_, ?_, ?_⟩
  · intro e
    have := h.1
    rw [e] at this
    exact isIdent_ne (this [] (by simp [splitDot])) rfl
  · exact splitDot_chars _ (fun q hq => isIdent_chars (h.1 q hq))
  · rintro rfl
    exact h.2 (by decide)

/-! ### Unions -/

theorem tsAdmits_unionFrom (env : String → JVal → Prop) (v : JVal) : ∀ (ts : List TsTy) (acc : Option TsTy),
    (acc ≠ none ∨ ts ≠ []) → (TsAdmits env (unionFrom acc ts) v ↔
      (∃ t, acc = some t ∧ TsAdmits env t v) ∨ ∃ t ∈ ts, TsAdmits env t v)
  | [], none, h => by simp at h
  | [], some t, _ => by simp [unionFrom]
  | t :: ts, acc, _ => by
    rw [show unionFrom acc (t :: ts) = unionFrom (some (joinUnion acc t)) ts by cases acc <;> rfl]
    rw [tsAdmits_unionFrom env v ts _ (.inl (by simp))]
    cases acc <;> simp [joinUnion, TsAdmits, or_assoc]

/-- Operands with bars between them. -/
def barToks : List Tok → List Tok
  | [] => []
  | [t] => [t]
  | t :: u :: rest => t :: .bar :: barToks (u :: rest)

theorem parse_bars (f : Tok → TsTy) : ∀ (toks : List Tok), toks ≠ [] →
    (∀ t ∈ toks, ∀ acc st, parseTok (⟨acc, none⟩ :: st) t = some (⟨acc, some (f t)⟩ :: st)) →
    ∀ acc st, ∃ a c, parseToks (⟨acc, none⟩ :: st) (barToks toks) = some (⟨a, some c⟩ :: st) ∧
      joinUnion a c = unionFrom acc (toks.map f)
  | [], h, _, _, _ => absurd rfl h
  | [t], _, h, acc, st => by
    refine ⟨acc, f t, ?_, ?_⟩
    · simp [barToks, parseToks, h t (by simp)]
    · cases acc <;> rfl
  | t :: u :: rest, _, h, acc, st => by
    obtain ⟨a, c, h1, h2⟩ := parse_bars f (u :: rest) (by simp) (fun x hx => h x (by simp [List.mem_cons.1 hx]))
      (some (joinUnion acc (f t))) st
    refine ⟨a, c, ?_, ?_⟩
    · simp only [barToks, parseToks]
      rw [h t (by simp)]
      simp only [Option.bind_some, parseTok]
      exact h1
    · rw [h2]
      cases acc <;> rfl

theorem lex_bars (g : String → Tok) : ∀ (ns : List String), ns ≠ [] →
    (∀ n ∈ ns, Lx n.toList [g n]) → Lx (joinWith " | " ns).toList (barToks (ns.map g))
  | [], h, _ => absurd rfl h
  | [n], _, h => h n (by simp)
  | n :: m :: rest, _, h => by
    have ih := lex_bars g (m :: rest) (by simp) (fun x hx => h x (by simp [List.mem_cons.1 hx]))
    intro r hr
    have h1 : lexChar ' ' = some ([], .start) := by decide
    have h2 : lexChar '|' = some ([.bar], .start) := by decide
    have e : (joinWith " | " (n :: m :: rest)).toList ++ r =
        n.toList ++ (' ' :: '|' :: ' ' :: ((joinWith " | " (m :: rest)).toList ++ r)) := by
      show (n ++ " | " ++ joinWith " | " (m :: rest)).toList ++ r = _
      simp
    rw [e, h n (by simp) _ (Stops.cons (by decide)), lexStart_ne h1, lexStart_ne h2, lexStart_ne h1, ih r hr]
    simp [barToks, Option.map_map, Function.comp_def]

theorem parseTs_bars (g : String → Tok) (f : Tok → TsTy) {ns : List String} (hne : ns ≠ [])
    (hl : ∀ n ∈ ns, Lx n.toList [g n])
    (hp : ∀ n ∈ ns, ∀ acc st, parseTok (⟨acc, none⟩ :: st) (g n) = some (⟨acc, some (f (g n))⟩ :: st)) :
    parseTs (joinWith " | " ns) = some (unionFrom none (ns.map (fun n => f (g n)))) := by
  refine parseTs_of (lex_bars g ns hne hl) ?_
  intro st
  obtain ⟨a, c, h1, h2⟩ := parse_bars f (ns.map g) (by simpa using hne) (by
    intro t ht
    obtain ⟨n, hn, rfl⟩ := List.mem_map.1 ht
    exact hp n hn) none st
  exact ⟨a, c, h1, by rw [h2, List.map_map]; rfl⟩

/-- What an operand token stands for. -/
def tokTy : Tok → TsTy
  | .ident n => .ref (String.ofList n)
  | .lit s => .lit (String.ofList s)
  | _ => .null

theorem parse_refs {ns : List String} (hne : ns ≠ []) (h : ∀ n ∈ ns, IsTypeName n) :
    parseTs (joinWith " | " ns) = some (unionFrom none (ns.map TsTy.ref)) := by
  have := parseTs_bars (fun n => .ident n.toList) tokTy hne (fun n hn => Lx.ident (h n hn).1 (h n hn).2.1) (by
    intro n hn acc st
    have : n.toList ≠ "null".toList := fun e => (h n hn).2.2 (String.toList_inj.mp e)
    simp only [parseTok, this, if_false, tokTy])
  rw [this]
  simp [tokTy]

theorem Lx.quoted {s : String} (h : ∀ c ∈ s.toList, c ≠ '"') :
    Lx ("\"" ++ s ++ "\"").toList [.lit s.toList] := by
  intro rest _
  have e : ("\"" ++ s ++ "\"").toList ++ rest = '"' :: (s.toList ++ '"' :: rest) := by simp
  have h1 : lexChar '"' = some ([], .lit []) := by decide
  rw [e, lexStart_ne h1, lex_lit _ _ _ h]
  simp [Option.map_map, Function.comp_def]

theorem parse_lits {ns : List String} (hne : ns ≠ []) (h : ∀ n ∈ ns, ∀ c ∈ n.toList, c ≠ '"') :
    parseTs (Flat.text (.literals ns)) = some (unionFrom none (ns.map TsTy.lit)) := by
  have hq : ∀ n ∈ ns, Lx ("\"" ++ n ++ "\"").toList [.lit n.toList] := fun n hn => Lx.quoted (h n hn)
  have unq : ∀ n : String, String.ofList (("\"" ++ n ++ "\"").toList.drop 1).dropLast = n := by
    intro n; simp
  let g : String → Tok := fun q => .lit ((q.toList.drop 1).dropLast)
  have hg : ∀ n : String, g ("\"" ++ n ++ "\"") = .lit n.toList := by intro n; simp [g]
  have := parseTs_bars g tokTy (ns := ns.map (fun n => "\"" ++ n ++ "\"")) (by simpa using hne) (by
    intro q hq'
    obtain ⟨n, hn, rfl⟩ := List.mem_map.1 hq'
    rw [hg]; exact hq n hn) (by
    intro q hq' acc st
    obtain ⟨n, hn, rfl⟩ := List.mem_map.1 hq'
    rw [hg]; simp [parseTok, tokTy])
  show parseTs (joinWith " | " (ns.map (fun n => "\"" ++ n ++ "\""))) = _
  rw [this, List.map_map]
  congr 2
  apply List.map_congr_left
  intro n _
  simp only [Function.comp_apply, hg, tokTy, String.ofList_toList]

/-! ### One line -/

theorem OneLine.append {a b : String} (ha : OneLine a.toList) (hb : OneLine b.toList) :
    OneLine (a ++ b).toList := by
  intro c hc
  rw [String.toList_append] at hc
  rcases List.mem_append.1 hc with h | h
  · exact ha c h
  · exact hb c h

theorem oneLine_joinWith {sep : String} (hs : OneLine sep.toList) : ∀ (l : List String),
    (∀ s ∈ l, OneLine s.toList) → OneLine (joinWith sep l).toList
  | [], _ => by intro c hc; simp [joinWith] at hc
  | [x], h => h x (by simp)
  | x :: y :: rest, h =>
    OneLine.append (OneLine.append (h x (by simp)) hs)
      (oneLine_joinWith hs (y :: rest) (fun s hs => h s (by simp [List.mem_cons.1 hs])))

theorem oneLine_single (m : Mod) {s : String} (h : OneLine s.toList) : OneLine (singlePropTypeDef m s).toList := by
  have h1 : OneLine " | null".toList := by unfold OneLine; decide
  have h2 : OneLine "[]".toList := by unfold OneLine; decide
  have h3 : OneLine "(".toList := by unfold OneLine; decide
  have h4 : OneLine "[] | null".toList := by unfold OneLine; decide
  have h5 : OneLine " | null)[]".toList := by unfold OneLine; decide
  have h6 : OneLine " | null)[] | null".toList := by unfold OneLine; decide
  cases m with
  | none => exact h
  | nullable => exact h.append h1
  | list => exact h.append h2
  | nullableList => exact h.append h4
  | listOfNullable => exact (h3.append h).append h5
  | nullableListOfNullable => exact (h3.append h).append h6

theorem oneLine_prop (rest : List Mod) (last : Mod) {s : String} (h : OneLine s.toList) :
    OneLine (propTypeDef rest last s).toList := by
  have h3 : OneLine "(".toList := by unfold OneLine; decide
  have h4 : OneLine ")".toList := by unfold OneLine; decide
  unfold propTypeDef
  have h0 := oneLine_single last h
  generalize singlePropTypeDef last s = s0 at h0 ⊢
  induction rest generalizing s0 with
  | nil => exact h0
  | cons m ms ih => exact ih _ (oneLine_single m ((h3.append h0).append h4))

theorem oneLine_typeName {s : String} (h : IsTypeName s) : OneLine s.toList := by
  intro c hc
  have := h.2.1 c hc
  refine ⟨?_, ?_, ?_⟩ <;> (rintro rfl; exact absurd this (by decide))

theorem refs_wrapMod (m : Mod) (t : TsTy) : (wrapMod m t).refs = t.refs := by
  cases m <;> simp [wrapMod, TsTy.refs]

theorem refs_wrapMods (ms : List Mod) (t : TsTy) : (wrapMods ms t).refs = t.refs := by
  induction ms generalizing t with
  | nil => rfl
  | cons m ms ih => rw [wrapMods, ih, refs_wrapMod]

theorem refs_unionFrom : ∀ (ts : List TsTy) (acc : Option TsTy), ∀ n ∈ (unionFrom acc ts).refs,
    (∃ t, acc = some t ∧ n ∈ t.refs) ∨ ∃ t ∈ ts, n ∈ t.refs
  | [], none => by simp [unionFrom, TsTy.refs]
  | [], some t => by simp [unionFrom]
  | t :: ts, acc => by
    rw [show unionFrom acc (t :: ts) = unionFrom (some (joinUnion acc t)) ts by cases acc <;> rfl]
    intro n hn
    rcases refs_unionFrom ts _ n hn with ⟨u, hu, h⟩ | ⟨u, hu, h⟩
    · simp only [Option.some.injEq] at hu
      subst hu
      cases acc with
      | none => exact .inr ⟨t, by simp, h⟩
      | some a =>
        simp only [joinUnion, TsTy.refs, List.mem_append] at h
        rcases h with h | h
        · exact .inl ⟨a, rfl, h⟩
        · exact .inr ⟨t, by simp, h⟩
    · exact .inr ⟨u, by simp [hu], h⟩

theorem readsType_named {rest : List Mod} {last : Mod} {s : String} (h : IsTypeRef s) :
    ReadsType (propTypeDef rest last s).toList (wrapMods (last :: rest) (.ref s)) := by
  refine readsType_of_parse (propTypeDef_full rest last (TextPrim.ident h.typeName)).parse
    (oneLine_prop _ _ (oneLine_typeName h.typeName)) ?_
  intro n hn
  rw [refs_wrapMods] at hn
  simp only [TsTy.refs, List.mem_singleton] at hn
  subst hn; exact h

theorem readsType_lits {ns : List String} (hne : ns ≠ []) (h : ∀ n ∈ ns, StrOk n.toList) :
    ReadsType (Flat.text (.literals ns)).toList (unionFrom none (ns.map TsTy.lit)) := by
  refine readsType_of_parse (parse_lits hne (fun n hn c hc => (h n hn c hc).1)) ?_ ?_
  · have h1 : OneLine " | ".toList := by unfold OneLine; decide
    have h2 : OneLine "\"".toList := by unfold OneLine; decide
    refine oneLine_joinWith h1 _ ?_
    intro s hs
    obtain ⟨n, hn, rfl⟩ := List.mem_map.1 hs
    exact (h2.append (fun c hc => (h n hn c hc).2)).append h2
  · intro n hn
    rcases refs_unionFrom _ _ n hn with ⟨_, h, _⟩ | ⟨t, ht, h⟩
    · simp at h
    · obtain ⟨m, _, rfl⟩ := List.mem_map.1 ht
      simp [TsTy.refs] at h

theorem readsType_refs {ns : List String} (hne : ns ≠ []) (h : ∀ n ∈ ns, IsTypeRef n) :
    ReadsType (joinWith " | " ns).toList (unionFrom none (ns.map TsTy.ref)) := by
  refine readsType_of_parse (parse_refs hne (fun n hn => (h n hn).typeName)) ?_ ?_
  · have h1 : OneLine " | ".toList := by unfold OneLine; decide
    exact oneLine_joinWith h1 _ (fun n hn => oneLine_typeName (h n hn).typeName)
  · intro n hn
    rcases refs_unionFrom _ _ n hn with ⟨_, h, _⟩ | ⟨t, ht, h'⟩
    · simp at h
    · obtain ⟨m, hm, rfl⟩ := List.mem_map.1 ht
      simp only [TsTy.refs, List.mem_singleton] at h'
      subst h'; exact h n hm

/-! ### Statements -/

theorem isIdent_string {s : String} (h : IsIdent s.toList) : s.toList ≠ [] ∧ ∀ c ∈ s.toList, isIdentChar c = true :=
  ⟨isIdent_ne h, isIdent_chars h⟩

theorem readBinding_ok {s : String} (h : IsBinding s) : readBinding s.toList = some s := by
  unfold readBinding
  rw [String.ofList_toList, if_pos h]

theorem readKey_ok {s : String} (h : IsIdent s.toList) : readKey s.toList = some s := by
  unfold readKey
  rw [if_pos h, String.ofList_toList]

theorem lexes_lit {s : String} {ts : List Tk} {st : TkSt} (h : lexTo .start s.toList = some (ts, st)) :
    Lexes .start s.toList ts st := h

/-- A name, then a fixed text. -/
theorem lexes_name {n t : String} {ts : List Tk} {st : TkSt} (hn : IsIdent n.toList)
    (hs : Lexes .start t.toList ts st)
    (h0 : ∃ c cs, t.toList = c :: cs ∧ isIdentChar c = false) :
    Lexes .start (n ++ t).toList (.ident n.toList :: ts) st := by
  obtain ⟨c, cs, e, hc⟩ := h0
  rw [String.toList_append]
  exact Lexes.nameThen (isIdent_ne hn) (isIdent_chars hn) e hc hs

theorem lexes_append {a b : String} {st st' st'' : TkSt} {ta tb : List Tk} (ha : Lexes st a.toList ta st')
    (hb : Lexes st' b.toList tb st'') : Lexes st (a ++ b).toList (ta ++ tb) st'' := by
  rw [String.toList_append]; exact ha.append hb

/-- Names with commas between them. -/
def commaToks : List String → List Tk
  | [] => []
  | [n] => [.ident n.toList]
  | n :: m :: rest => .ident n.toList :: .p ',' :: commaToks (m :: rest)

theorem lexes_commas : ∀ (ns : List String), ns ≠ [] →
    (∀ n ∈ ns, n.toList ≠ [] ∧ ∀ c ∈ n.toList, isIdentChar c = true) →
    ∀ {t : String} {ts : List Tk} {st : TkSt}, Lexes .start t.toList ts st →
    (∃ c cs, t.toList = c :: cs ∧ isIdentChar c = false) →
    Lexes .start (joinWith ", " ns ++ t).toList (commaToks ns ++ ts) st
  | [], h, _, _, _, _, _, _ => absurd rfl h
  | [n], _, hn, t, ts, st, hs, ⟨c, cs, e, hc⟩ => by
    rw [String.toList_append]
    exact Lexes.nameThen (hn n (by simp)).1 (hn n (by simp)).2 e hc hs
  | n :: m :: rest, _, hn, t, ts, st, hs, h0 => by
    have ih := lexes_commas (m :: rest) (by simp) (fun x hx => hn x (by simp [List.mem_cons.1 hx])) hs h0
    have hc : Lexes .start ", ".toList [.p ','] .start := by unfold Lexes; decide
    have h1 := lexes_append hc ih
    have e : joinWith ", " (n :: m :: rest) ++ t = n ++ (", " ++ (joinWith ", " (m :: rest) ++ t)) := by
      show n ++ ", " ++ joinWith ", " (m :: rest) ++ t = _
      simp only [String.append_assoc]
    rw [e, String.toList_append]
    refine Lexes.nameThen (c := ',') (cs := ' ' :: (joinWith ", " (m :: rest) ++ t).toList)
      (hn n (by simp)).1 (hn n (by simp)).2 (by simp) (by decide) h1

theorem splitComma_commas : ∀ (ns : List String), ns ≠ [] →
    splitComma (commaToks ns) = ns.map (fun n => [.ident n.toList])
  | [], h => absurd rfl h
  | [n], _ => by simp [commaToks, splitComma]
  | n :: m :: rest, _ => by
    have ih := splitComma_commas (m :: rest) (by simp)
    simp [commaToks, splitComma, ih]

theorem every_map {α β γ : Type} (f : β → Option γ) (g : α → β) (h : α → γ) : ∀ (l : List α),
    (∀ a ∈ l, f (g a) = some (h a)) → every f (l.map g) = some (l.map h)
  | [], _ => rfl
  | a :: l, hl => by
    have ih := every_map f g h l (fun b hb => hl b (by simp [hb]))
    simp [every, hl a (by simp), ih]

theorem commaToks_clean : ∀ (ns : List String), ∀ t ∈ commaToks ns, t ∉ cutters ∧ t ≠ .p '>'
  | [] => by simp [commaToks]
  | [n] => by simp [commaToks, cutters]
  | n :: m :: rest => by
    have ih := commaToks_clean (m :: rest)
    intro t ht
    simp only [commaToks, List.mem_cons] at ht
    rcases ht with rfl | rfl | ht
    · simp [cutters]
    · decide
    · exact ih t ht

/-- An import. -/
theorem reads_import {ns : List String} {m : String} (hne : ns ≠ []) (hn : ∀ n ∈ ns, IsBinding n)
    (hm : StrOk m.toList) :
    Reads .top ("import type { " ++ joinWith ", " ns ++ " } from \"" ++ m ++ "\";\n")
      [.importType ns m] .top := by
  have e : "import type { " ++ joinWith ", " ns ++ " } from \"" ++ m ++ "\";\n" =
      "import type { " ++ ((joinWith ", " ns ++ " }") ++ (" from " ++ ("\"" ++ m ++ "\"") ++ ";\n")) := by
    have e1 : " } from \"" = " }" ++ (" from " ++ "\"") := by decide
    have e2 : "\";\n" = "\"" ++ ";\n" := by decide
    rw [e1, e2]
    simp only [String.append_assoc]
  rw [e]
  have h1 : Reads .top "import type { " [] .importNames := by
    refine Reads.piece (ts := [.ident "import".toList, .ident "type".toList]) (c := '{') ?_ ?_ (by decide) ?_
    · unfold Lexes; decide
    · decide
    · decide
  have h2 : Reads .importNames (joinWith ", " ns ++ " }") [] (.importFrom ns) := by
    refine Reads.piece (ts := commaToks ns) (c := '}') ?_ (fun t ht => (commaToks_clean ns t ht).1) (by decide) ?_
    · refine lexes_commas ns hne (fun n h => isIdent_string (hn n h).1) ?_ ⟨' ', ['}'], by decide, by decide⟩
      unfold Lexes; decide
    · simp only [readPiece, if_true]
      rw [splitComma_commas ns hne, every_map readImported _ id ns]
      · simp
      · intro n h
        simp only [readImported, readBinding_ok (hn n h)]; rfl
  have h3 : Reads (.importFrom ns) (" from " ++ ("\"" ++ m ++ "\"") ++ ";\n") [.importType ns m] .top := by
    refine Reads.piece (ts := [.ident "from".toList, .str m.toList]) (c := ';') ?_ ?_ (by decide) ?_
    · have a1 : Lexes .start " from ".toList [.ident "from".toList] .start := by unfold Lexes; decide
      have a2 : Lexes .start ("\"" ++ m ++ "\"").toList [.str m.toList] .start := by
        have := Lexes.string hm
        simpa using this
      have a3 : Lexes .start ";\n".toList [.p ';'] .start := by unfold Lexes; decide
      exact lexes_append (lexes_append a1 a2) a3
    · intro t ht
      simp only [List.mem_cons, List.not_mem_nil, or_false] at ht
      rcases ht with rfl | rfl <;> simp [cutters]
    · simp [readPiece, readFrom]
  simpa using h1.append (h2.append h3)

/-- The references of a property can be read back. -/
def FlatOk (last : Mod) (rest : List Mod) : Flat → Prop
  | .literals ns => ns ≠ [] ∧ (∀ n ∈ ns, StrOk n.toList) ∧ last = .none ∧ rest = []
  | f => IsTypeRef f.text

theorem readsType_flat {last : Mod} {rest : List Mod} {f : Flat} (h : FlatOk last rest f) :
    ReadsType (propTypeDef rest last f.text).toList (wrapMods (last :: rest) f.ty) := by
  cases f with
  | literals ns =>
    obtain ⟨h1, h2, rfl, rfl⟩ := h
    exact readsType_lits h1 h2
  | _ => exact readsType_named h

theorem clean_of_types {ts : List Tk} (h : ∀ k ∈ ts, ¬ NotInTypes k) : ∀ k ∈ ts, k ∉ cutters :=
  fun k hk hc => h k hk (.inl hc)

/-- One property. -/
theorem reads_member {n : String} {ms : List TsMember} {pre name colon ty : String} {ro opt : Bool} {t : TsTy}
    (hpre : pre = "" ∧ ro = false ∨ pre = "readonly " ∧ ro = true)
    (hcolon : colon = ": " ∧ opt = false ∨ colon = "?: " ∧ opt = true)
    (hn : IsIdent name.toList) (ht : ReadsType ty.toList t) :
    Reads (.object n ms) (pre ++ (name ++ (colon ++ (ty ++ ";")))) [] (.object n (ms ++ [⟨ro, name, opt, t⟩])) := by
  obtain ⟨ts, h1, h2, h3⟩ := ht
  have a1 : Lexes .start (ty ++ ";").toList (ts ++ [.p ';']) .start := by
    rw [String.toList_append]
    refine h1.then (c := ';') (cs := []) (by decide) (by decide) ?_
    unfold Lexes; decide
  have hts := clean_of_types h3
  have hnk := readKey_ok hn
  rcases hpre with ⟨rfl, rfl⟩ | ⟨rfl, rfl⟩ <;> rcases hcolon with ⟨rfl, rfl⟩ | ⟨rfl, rfl⟩
  · refine Reads.piece (ts := .ident name.toList :: .p ':' :: ts) (c := ';') ?_ ?_ (by decide) ?_
    · rw [show "" ++ (name ++ (": " ++ (ty ++ ";"))) = name ++ (": " ++ (ty ++ ";")) by simp]
      refine lexes_name (t := ": " ++ (ty ++ ";")) hn (ts := .p ':' :: (ts ++ [.p ';'])) ?_ ⟨':', ' ' :: (ty ++ ";").toList, by simp, by decide⟩
      have : Lexes .start ": ".toList [.p ':'] .start := by unfold Lexes; decide
      exact lexes_append this a1
    · intro k hk
      simp only [List.mem_cons] at hk
      rcases hk with rfl | rfl | hk
      · simp [cutters]
      · decide
      · exact hts k hk
    · simp [readPiece, readMember, hnk, h2]
  · refine Reads.piece (ts := .ident name.toList :: .p '?' :: .p ':' :: ts) (c := ';') ?_ ?_ (by decide) ?_
    · rw [show "" ++ (name ++ ("?: " ++ (ty ++ ";"))) = name ++ ("?: " ++ (ty ++ ";")) by simp]
      refine lexes_name (t := "?: " ++ (ty ++ ";")) hn (ts := .p '?' :: .p ':' :: (ts ++ [.p ';'])) ?_
        ⟨'?', ':' :: ' ' :: (ty ++ ";").toList, by simp, by decide⟩
      have : Lexes .start "?: ".toList [.p '?', .p ':'] .start := by unfold Lexes; decide
      exact lexes_append this a1
    · intro k hk
      simp only [List.mem_cons] at hk
      rcases hk with rfl | rfl | rfl | hk
      · simp [cutters]
      · decide
      · decide
      · exact hts k hk
    · simp [readPiece, readMember, hnk, h2]
  · refine Reads.piece (ts := .ident "readonly".toList :: .ident name.toList :: .p ':' :: ts) (c := ';')
      ?_ ?_ (by decide) ?_
    · have a0 : Lexes .start "readonly ".toList [.ident "readonly".toList] .start := by unfold Lexes; decide
      refine lexes_append a0 (tb := .ident name.toList :: (.p ':' :: (ts ++ [.p ';']))) ?_
      refine lexes_name (t := ": " ++ (ty ++ ";")) hn ?_ ⟨':', ' ' :: (ty ++ ";").toList, by simp, by decide⟩
      have : Lexes .start ": ".toList [.p ':'] .start := by unfold Lexes; decide
      exact lexes_append this a1
    · intro k hk
      simp only [List.mem_cons] at hk
      rcases hk with rfl | rfl | rfl | hk
      · simp [cutters]
      · simp [cutters]
      · decide
      · exact hts k hk
    · simp [readPiece, readMember, hnk, h2]
  · refine Reads.piece (ts := .ident "readonly".toList :: .ident name.toList :: .p '?' :: .p ':' :: ts) (c := ';')
      ?_ ?_ (by decide) ?_
    · have a0 : Lexes .start "readonly ".toList [.ident "readonly".toList] .start := by unfold Lexes; decide
      refine lexes_append a0 (tb := .ident name.toList :: (.p '?' :: .p ':' :: (ts ++ [.p ';']))) ?_
      refine lexes_name (t := "?: " ++ (ty ++ ";")) hn ?_ ⟨'?', ':' :: ' ' :: (ty ++ ";").toList, by simp, by decide⟩
      have : Lexes .start "?: ".toList [.p '?', .p ':'] .start := by unfold Lexes; decide
      exact lexes_append this a1
    · intro k hk
      simp only [List.mem_cons] at hk
      rcases hk with rfl | rfl | rfl | rfl | hk
      · simp [cutters]
      · simp [cutters]
      · decide
      · decide
      · exact hts k hk
    · simp [readPiece, readMember, hnk, h2]

/-- Members, one per line. -/
theorem reads_members {α : Type} {n : String} (text : α → String) (mem : α → TsMember) : ∀ (l : List α),
    (∀ a ∈ l, ∀ ms, Reads (.object n ms) (text a) [] (.object n (ms ++ [mem a]))) → ∀ ms,
    Reads (.object n ms) (joinWith "\n" (l.map text)) [] (.object n (ms ++ l.map mem))
  | [], _, ms => by
    simp only [List.map_nil, joinWith, List.append_nil]
    exact Reads.skip (Lexes.nil _)
  | [a], h, ms => by simpa [joinWith] using h a (by simp) ms
  | a :: b :: rest, h, ms => by
    have ih := reads_members text mem (b :: rest) (fun x hx => h x (by simp [List.mem_cons.1 hx])) (ms ++ [mem a])
    have h1 := (h a (by simp) ms).before (b := "\n") (by unfold Lexes; decide)
    have := h1.append ih
    simpa [joinWith] using this

/-- An object type. -/
theorem reads_object {n body : String} {ms : List TsMember} (hn : IsBinding n)
    (hb : Reads (.object n []) body [] (.object n ms)) :
    Reads .top ("export type " ++ n ++ " = {\n" ++ body ++ "\n};") [.typeAlias n (.object ms)] .top := by
  have h1 : Reads .top ("export type " ++ (n ++ " = {\n")) [] (.object n []) := by
    refine Reads.piece (ts := [.ident "export".toList, .ident "type".toList, .ident n.toList, .p '=']) (c := '{')
      ?_ ?_ (by decide) ?_
    · have a0 : Lexes .start "export type ".toList [.ident "export".toList, .ident "type".toList] .start := by
        unfold Lexes; decide
      have a1 : Lexes .start " = {\n".toList [.p '=', .p '{'] .start := by unfold Lexes; decide
      have := lexes_append a0 (lexes_name hn.1 a1 ⟨' ', ['=', ' ', '{', '\n'], by decide, by decide⟩)
      simpa using this
    · simp [cutters]
    · simp [readPiece, openBrace, readBinding_ok hn]
  have h2 : Reads (.object n ms) "\n}" [] (.objectEnd n ms) := by
    refine Reads.piece (ts := []) (c := '}') ?_ (by simp) (by decide) ?_
    · unfold Lexes; decide
    · simp [readPiece]
  have h3 : Reads (.objectEnd n ms) ";" [.typeAlias n (.object ms)] .top := by
    refine Reads.piece (ts := []) (c := ';') ?_ (by simp) (by decide) ?_
    · unfold Lexes; decide
    · simp [readPiece]
  have e : "export type " ++ n ++ " = {\n" ++ body ++ "\n};" =
      ("export type " ++ (n ++ " = {\n")) ++ (body ++ ("\n}" ++ ";")) := by
    rw [show "\n};" = "\n}" ++ ";" by decide]
    simp only [String.append_assoc]
  rw [e]
  simpa using h1.append (hb.append (h2.append h3))

/-- A type alias. -/
theorem reads_alias {n ty : String} {t : TsTy} (hn : IsBinding n) (ht : ReadsType ty.toList t) :
    Reads .top ("export type " ++ n ++ " = " ++ ty ++ ";") [.typeAlias n (.type t)] .top := by
  obtain ⟨ts, h1, h2, h3⟩ := ht
  refine Reads.piece (ts := .ident "export".toList :: .ident "type".toList :: .ident n.toList :: .p '=' :: ts)
    (c := ';') ?_ ?_ (by decide) ?_
  · have a0 : Lexes .start "export type ".toList [.ident "export".toList, .ident "type".toList] .start := by
      unfold Lexes; decide
    have a1 : Lexes .start " = ".toList [.p '='] .start := by unfold Lexes; decide
    have a2 : Lexes .start (ty ++ ";").toList (ts ++ [.p ';']) .start := by
      rw [String.toList_append]
      refine h1.then (c := ';') (cs := []) (by decide) (by decide) ?_
      unfold Lexes; decide
    have e : "export type " ++ n ++ " = " ++ ty ++ ";" = "export type " ++ (n ++ (" = " ++ (ty ++ ";"))) := by
      simp only [String.append_assoc]
    rw [e]
    have := lexes_append a0 (lexes_name hn.1 (lexes_append a1 a2)
      ⟨' ', '=' :: ' ' :: (ty ++ ";").toList, by simp, by decide⟩)
    simpa using this
  · intro k hk
    simp only [List.mem_cons] at hk
    rcases hk with rfl | rfl | rfl | rfl | hk
    · simp [cutters]
    · simp [cutters]
    · simp [cutters]
    · decide
    · exact clean_of_types h3 k hk
  · simp [readPiece, readSimple, readBinding_ok hn, h2]

theorem readType_ident {n : String} (h : IsTypeRef n) : readType [.ident n.toList] = some (.ref n) := by
  have hn : n.toList ≠ "null".toList := fun e => h.typeName.2.2 (String.toList_inj.mp e)
  unfold readType
  simp only [typeTokens, Option.map_some, parseToks, parseTok, hn, if_false, Option.bind_some, joinUnion,
    String.ofList_toList, TsTy.refs]
  rw [if_pos (by simpa using h)]

/-- The document node. -/
theorem reads_declare {x h : String} {as : List String} (hx : IsBinding x) (hh : IsBinding h) (hne : as ≠ [])
    (ha : ∀ a ∈ as, IsTypeRef a) :
    Reads .top ("declare const " ++ (x ++ (": " ++ (h ++ ("<" ++ (joinWith ", " as ++ ">;"))))))
      [.declare x h (as.map TsTy.ref)] .top := by
  refine Reads.piece (ts := [.ident "declare".toList, .ident "const".toList, .ident x.toList, .p ':',
    .ident h.toList, .p '<'] ++ (commaToks as ++ [.p '>'])) (c := ';') ?_ ?_ (by decide) ?_
  · have a0 : Lexes .start "declare const ".toList [.ident "declare".toList, .ident "const".toList] .start := by
      unfold Lexes; decide
    have a1 : Lexes .start ": ".toList [.p ':'] .start := by unfold Lexes; decide
    have a2 : Lexes .start "<".toList [.p '<'] .start := by unfold Lexes; decide
    have a3 : Lexes .start ">;".toList [.p '>', .p ';'] .start := by unfold Lexes; decide
    have b3 := lexes_commas as hne (fun a h => ⟨(ha a h).typeName.1, (ha a h).typeName.2.1⟩) a3
      ⟨'>', [';'], by decide, by decide⟩
    have b2 := lexes_name hh.1 (lexes_append a2 b3) ⟨'<', (joinWith ", " as ++ ">;").toList, by simp, by decide⟩
    have b1 := lexes_name hx.1 (lexes_append a1 b2)
      ⟨':', ' ' :: (h ++ ("<" ++ (joinWith ", " as ++ ">;"))).toList, by simp, by decide⟩
    have := lexes_append a0 b1
    simpa using this
  · intro k hk
    rcases List.mem_append.1 hk with hk | hk
    · simp only [List.mem_cons, List.not_mem_nil, or_false] at hk
      rcases hk with rfl | rfl | rfl | rfl | rfl | rfl <;> simp [cutters]
    · rcases List.mem_append.1 hk with hk | hk
      · exact (commaToks_clean as k hk).1
      · simp only [List.mem_singleton] at hk
        subst hk; decide
  · have hr : readArgs (commaToks as ++ [.p '>']) = some (as.map TsTy.ref) := by
      unfold readArgs
      rw [if_pos (by simp), List.dropLast_concat, splitComma_commas as hne,
        every_map readType _ TsTy.ref as (fun a h => readType_ident (ha a h))]
    simp [readPiece, readSimple, readBinding_ok hx, readBinding_ok hh, hr]

/-- The default export. -/
theorem reads_default {x : String} (hx : IsBinding x) :
    Reads .top ("export default " ++ (x ++ ";")) [.exportDefault x] .top := by
  refine Reads.piece (ts := [.ident "export".toList, .ident "default".toList, .ident x.toList]) (c := ';')
    ?_ ?_ (by decide) ?_
  · have a0 : Lexes .start "export default ".toList [.ident "export".toList, .ident "default".toList] .start := by
      unfold Lexes; decide
    have a1 : Lexes .start ";".toList [.p ';'] .start := by unfold Lexes; decide
    have := lexes_append a0 (lexes_name hx.1 a1 ⟨';', [], by decide, by decide⟩)
    simpa using this
  · simp [cutters]
  · simp [readPiece, readSimple, readBinding_ok hx]

/-! ### Files -/

/-- The declaration can be read back. -/
def DeclOk : TsDecl → Prop
  | .object n props => IsBinding n ∧ ∀ p ∈ props, IsIdent p.name.toList ∧ DocOk p.doc ∧ FlatOk p.last p.rest p.flat
  | .union n alts => IsBinding n ∧ alts ≠ [] ∧ ∀ a ∈ alts, IsTypeRef a

/-- The file can be read back. -/
structure FileOk (f : TsFile) : Prop where
  docNode : IsBinding f.docNode
  docModule : StrOk f.docModule.toList
  globals : ∀ g ∈ f.globals, IsBinding g
  globalsModule : f.globals ≠ [] → StrOk f.globalsModule.toList
  decls : ∀ d ∈ f.decls, DeclOk d
  vars : ∀ n vs, f.vars = some (n, vs) → IsBinding n ∧
    ∀ v ∈ vs, IsIdent v.name.toList ∧ FlatOk v.last [] v.flat
  args : f.args ≠ [] ∧ ∀ a ∈ f.args, IsTypeRef a

theorem reads_prop {n : String} {ro : Bool} {p : TsProp}
    (h : IsIdent p.name.toList ∧ DocOk p.doc ∧ FlatOk p.last p.rest p.flat) (ms : List TsMember) :
    Reads (.object n ms) (p.text ro) [] (.object n (ms ++ [p.member ro])) := by
  have e : p.text ro = ("  " ++ compileDocumentation p.doc p.deprecated 2) ++
      ((if ro then "readonly " else "") ++ (p.name ++ (": " ++ (p.typeText ++ ";")))) := by
    unfold TsProp.text
    simp only [String.append_assoc]
  rw [e]
  refine Reads.after ?_ ?_
  · exact lexes_append (ta := []) (by unfold Lexes; decide) (Lexes.doc h.2.1 _ _)
  · refine reads_member (opt := false) ?_ (.inl ⟨rfl, rfl⟩) h.1 (readsType_flat h.2.2)
    cases ro
    · exact .inl ⟨rfl, rfl⟩
    · exact .inr ⟨rfl, rfl⟩

theorem reads_var {n : String} {v : TsVar} (h : IsIdent v.name.toList ∧ FlatOk v.last [] v.flat)
    (ms : List TsMember) : Reads (.object n ms) v.text [] (.object n (ms ++ [v.member])) := by
  have e : v.text = "  " ++ ("" ++ (v.name ++ ((if v.optional then "?: " else ": ") ++
      (propTypeDef [] v.last v.flat.text ++ ";")))) := by
    unfold TsVar.text
    simp [String.append_assoc]
  rw [e]
  refine Reads.after (by unfold Lexes; decide) ?_
  refine reads_member (ro := false) (.inl ⟨rfl, rfl⟩) ?_ h.1 (readsType_flat h.2)
  cases v.optional
  · exact .inl ⟨rfl, rfl⟩
  · exact .inr ⟨rfl, rfl⟩

theorem reads_decl {ro : Bool} {d : TsDecl} (h : DeclOk d) : Reads .top (d.text ro) [d.stmt ro] .top := by
  cases d with
  | object n props =>
    exact reads_object h.1 (reads_members (TsProp.text ro) (TsProp.member ro) props
      (fun p hp ms => reads_prop (h.2 p hp) ms) [])
  | union n alts => exact reads_alias h.1 (readsType_refs h.2.1 h.2.2)

/-- Statements with blank lines between them. -/
theorem reads_blocks {α : Type} (text : α → String) (stmt : α → TsStmt) : ∀ (l : List α),
    (∀ a ∈ l, Reads .top (text a) [stmt a] .top) →
    Reads .top (joinWith "\n\n" (l.map text)) (l.map stmt) .top
  | [], _ => Reads.skip (Lexes.nil _)
  | [a], h => h a (by simp)
  | a :: b :: rest, h => by
    have ih := reads_blocks text stmt (b :: rest) (fun x hx => h x (by simp [List.mem_cons.1 hx]))
    have := ((h a (by simp)).before (b := "\n\n") (by unfold Lexes; decide)).append ih
    simpa [joinWith] using this

theorem header_lexes : Lexes .start generatedHeader.toList [] .start := by unfold Lexes; decide +kernel

/-- The text of a file is read as its statements. -/
theorem parse_file {ro : Bool} {f : TsFile} (h : FileOk f) : parseModule (f.text ro) = some (f.stmts ro) := by
  apply Reads.parse
  have h1 : Reads .top ("import type { " ++ f.docNode ++ " } from \"" ++ f.docModule ++ "\";\n")
      [.importType [f.docNode] f.docModule] .top := by
    simpa [joinWith] using reads_import (ns := [f.docNode]) (by simp) (by simpa using h.docNode) h.docModule
  have h2 : Reads .top (if f.globals = [] then "" else
      "import type { " ++ joinWith ", " f.globals ++ " } from \"" ++ f.globalsModule ++ "\";\n")
      (if f.globals = [] then [] else [.importType f.globals f.globalsModule]) .top := by
    by_cases hg : f.globals = []
    · rw [if_pos hg, if_pos hg]; exact Reads.skip (Lexes.nil _)
    · rw [if_neg hg, if_neg hg]; exact reads_import hg h.globals (h.globalsModule hg)
  have h3 := reads_blocks (TsDecl.text ro) (TsDecl.stmt ro) f.decls (fun d hd => reads_decl (h.decls d hd))
  have h4 : Reads .top (match f.vars with
      | none => ""
      | some (n, vs) => "\n\nexport type " ++ n ++ " = {\n" ++ joinWith "\n" (vs.map TsVar.text) ++ "\n};")
      (match f.vars with
      | none => []
      | some (n, vs) => [.typeAlias n (.object (vs.map TsVar.member))]) .top := by
    cases hv : f.vars with
    | none => exact Reads.skip (Lexes.nil _)
    | some r =>
      obtain ⟨n, vs⟩ := r
      obtain ⟨a1, a2⟩ := h.vars n vs hv
      simp only
      have e : "\n\nexport type " ++ n ++ " = {\n" ++ joinWith "\n" (vs.map TsVar.text) ++ "\n};" =
          "\n\n" ++ ("export type " ++ n ++ " = {\n" ++ joinWith "\n" (vs.map TsVar.text) ++ "\n};") := by
        rw [show "\n\nexport type " = "\n\n" ++ "export type " by decide]
        simp only [String.append_assoc]
      rw [e]
      exact Reads.after (by unfold Lexes; decide)
        (reads_object a1 (reads_members TsVar.text TsVar.member vs (fun v hv ms => reads_var (a2 v hv) ms) []))
  have hx : IsBinding "graphqlDocument" := by decide +kernel
  have h5 := reads_declare hx h.docNode h.args.1 h.args.2
  have h6 := reads_default hx
  have h7 := (((((((h1.append h2).before (b := "\n") (by unfold Lexes; decide)).append h3).append h4).before
    (b := "\n\n") (by unfold Lexes; decide)).append h5).before (b := "\n") (by unfold Lexes; decide)).append h6
  have h8 := Reads.after header_lexes h7
  have e1 : f.text ro = generatedHeader ++
      (("import type { " ++ f.docNode ++ " } from \"" ++ f.docModule ++ "\";\n" ++
      (if f.globals = [] then "" else
        "import type { " ++ joinWith ", " f.globals ++ " } from \"" ++ f.globalsModule ++ "\";\n") ++
      "\n" ++ joinWith "\n\n" (f.decls.map (TsDecl.text ro)) ++
      (match f.vars with
        | none => ""
        | some (n, vs) => "\n\nexport type " ++ n ++ " = {\n" ++ joinWith "\n" (vs.map TsVar.text) ++ "\n};") ++
      "\n\n" ++ ("declare const " ++ ("graphqlDocument" ++ (": " ++ (f.docNode ++ ("<" ++ (joinWith ", " f.args ++ ">;")))))) ++
      "\n" ++ ("export default " ++ ("graphqlDocument" ++ ";")))) := by
    unfold TsFile.text generatedHeader
    rw [show "\n\ndeclare const graphqlDocument: " = "\n\n" ++ ("declare const " ++ ("graphqlDocument" ++ ": ")) by decide,
      show ";\nexport default graphqlDocument;" = ";" ++ ("\n" ++ ("export default " ++ ("graphqlDocument" ++ ";"))) by decide,
      show ">;" = ">" ++ ";" by decide]
    simp only [String.append_assoc]
    rfl
  rw [e1]
  have e2 : f.stmts ro = [.importType [f.docNode] f.docModule] ++
      (if f.globals = [] then [] else [.importType f.globals f.globalsModule]) ++
      f.decls.map (TsDecl.stmt ro) ++
      (match f.vars with
        | none => []
        | some (n, vs) => [.typeAlias n (.object (vs.map TsVar.member))]) ++
      [.declare "graphqlDocument" f.docNode (f.args.map TsTy.ref)] ++ [.exportDefault "graphqlDocument"] := by
    unfold TsFile.stmts
    cases f.vars <;> simp
  rw [e2]
  exact h8

/-! ### The globals module -/

/-- Enum members, one per line. -/
def memberToks : List String → List Tk
  | [] => []
  | v :: vs => .ident v.toList :: .p '=' :: .str v.toList :: .p ',' :: memberToks vs

theorem isIdent_strOk {s : List Char} (h : IsIdent s) : StrOk s := by
  intro c hc
  have := isIdent_chars h c hc
  refine ⟨?_, ?_, ?_, ?_⟩ <;> (rintro rfl; exact absurd this (by decide))

theorem lexes_enumMember {v : String} (h : IsIdent v.toList) :
    Lexes .start (enumMember v).toList [.ident v.toList, .p '=', .str v.toList, .p ','] .start := by
  have a1 : Lexes .start "  ".toList [] .start := by unfold Lexes; decide
  have a2 : Lexes .start " = ".toList [.p '='] .start := by unfold Lexes; decide
  have a3 : Lexes .start ("\"" ++ v ++ "\"").toList [.str v.toList] .start := by
    have := Lexes.string (isIdent_strOk h)
    simpa using this
  have a4 : Lexes .start ",".toList [.p ','] .start := by unfold Lexes; decide
  have b := lexes_append a1 (lexes_name h (lexes_append a2 (lexes_append a3 a4))
    ⟨' ', '=' :: ' ' :: ("\"" ++ v ++ "\"" ++ ",").toList, by simp, by decide⟩)
  have e : enumMember v = "  " ++ (v ++ (" = " ++ ("\"" ++ v ++ "\"" ++ ","))) := by
    unfold enumMember
    rw [show " = \"" = " = " ++ "\"" by decide, show "\"," = "\"" ++ "," by decide]
    simp only [String.append_assoc]
  rw [e]
  exact b

theorem lexes_enumMembers : ∀ (vs : List String), (∀ v ∈ vs, IsIdent v.toList) →
    Lexes .start (joinWith "\n" (vs.map enumMember)).toList (memberToks vs) .start
  | [], _ => Lexes.nil _
  | [v], h => by simpa [joinWith, memberToks] using lexes_enumMember (h v (by simp))
  | v :: w :: rest, h => by
    have ih := lexes_enumMembers (w :: rest) (fun x hx => h x (by simp [List.mem_cons.1 hx]))
    have a1 : Lexes .start "\n".toList [] .start := by unfold Lexes; decide
    have := lexes_append (lexes_append (lexes_enumMember (h v (by simp))) a1) ih
    simpa [joinWith, memberToks] using this

theorem memberToks_clean : ∀ (vs : List String), ∀ t ∈ memberToks vs, t ∉ cutters
  | [] => by simp [memberToks]
  | v :: vs => by
    have ih := memberToks_clean vs
    intro t ht
    simp only [memberToks, List.mem_cons] at ht
    rcases ht with rfl | rfl | rfl | rfl | ht
    · simp [cutters]
    · decide
    · simp [cutters]
    · decide
    · exact ih t ht

theorem splitComma_members : ∀ (vs : List String),
    splitComma (memberToks vs) = vs.map (fun v => [.ident v.toList, .p '=', .str v.toList]) ++ [[]]
  | [] => by simp [memberToks, splitComma]
  | v :: vs => by
    have ih := splitComma_members vs
    simp [memberToks, splitComma, ih]

theorem reads_enum {n : String} {vs : List String} (hn : IsBinding n) (hv : ∀ v ∈ vs, IsIdent v.toList) :
    Reads .top ("export enum " ++ n ++ " {\n" ++ joinWith "\n" (vs.map enumMember) ++ "\n}")
      [.enum n (vs.map (fun v => (v, v)))] .top := by
  have h1 : Reads .top ("export enum " ++ (n ++ " {\n")) [] (.enum n) := by
    refine Reads.piece (ts := [.ident "export".toList, .ident "enum".toList, .ident n.toList]) (c := '{')
      ?_ ?_ (by decide) ?_
    · have a0 : Lexes .start "export enum ".toList [.ident "export".toList, .ident "enum".toList] .start := by
        unfold Lexes; decide
      have a1 : Lexes .start " {\n".toList [.p '{'] .start := by unfold Lexes; decide
      have := lexes_append a0 (lexes_name hn.1 a1 ⟨' ', ['{', '\n'], by decide, by decide⟩)
      simpa using this
    · simp [cutters]
    · simp [readPiece, openBrace, readBinding_ok hn]
  have h2 : Reads (.enum n) (joinWith "\n" (vs.map enumMember) ++ "\n}") [.enum n (vs.map (fun v => (v, v)))] .top := by
    refine Reads.piece (ts := memberToks vs) (c := '}') ?_ (memberToks_clean vs) (by decide) ?_
    · have a1 : Lexes .start "\n}".toList [.p '}'] .start := by unfold Lexes; decide
      exact lexes_append (lexes_enumMembers vs hv) a1
    · have : readEnumMembers (memberToks vs) = some (vs.map (fun v => (v, v))) := by
        unfold readEnumMembers
        rw [splitComma_members]
        simp only [List.getLast?_append, List.getLast?_singleton, Option.some_or, if_true, List.dropLast_concat]
        refine every_map readEnumMember _ (fun v => (v, v)) vs ?_
        intro v hm
        simp [readEnumMember, readKey_ok (hv v hm)]
      simp [readPiece, this]
  have e : "export enum " ++ n ++ " {\n" ++ joinWith "\n" (vs.map enumMember) ++ "\n}" =
      ("export enum " ++ (n ++ " {\n")) ++ (joinWith "\n" (vs.map enumMember) ++ "\n}") := by
    simp only [String.append_assoc]
  rw [e]
  simpa using h1.append h2

end Qlc
