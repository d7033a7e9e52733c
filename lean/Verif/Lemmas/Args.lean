import Verif.Model.Args
import Verif.Spec.Args
import Mathlib.Tactic.IntervalCases
import Mathlib.Tactic.Ring
/-
How the argument parser reads the words that make a setting (C93).
-/
set_option autoImplicit false

namespace Qlc
open Spec

/-- The entry that a setting makes. -/
def Spec.Setting.entry : Setting → ArgId × ArgVal
  | .rootDir p => (.rootDir, .path p)
  | .configFile p => (.configFile, .path p)
  | .schemaPath p => (.schemaPath, .path p)
  | .useCustomScalars => (.useCustomScalars, .set)
  | .customScalarPrefix s => (.customScalarPrefix, .str s)
  | .rootDirImportPrefix s => (.rootDirImportPrefix, .str s)
  | .globalTypesModuleName s => (.globalTypesModuleName, .str s)
  | .typedGraphqlDocumentnodeModuleName s => (.typedGraphqlDocumentnodeModuleName, .str s)
  | .disableReadonlyTypes => (.disableReadonlyTypes, .set)
  | .showDeprecationWarnings => (.showDeprecationWarnings, .set)
  | .numThreads n => (.numThreads, .num n)
  | .noColor => (.noColor, .set)

theorem sameOption_iff (s t : Setting) : SameOption s t ↔ s.entry.1 = t.entry.1 := by
  cases s <;> cases t <;> simp [SameOption, Spec.Setting.entry]

theorem entry_inj {s t : Setting} (h : s.entry = t.entry) : s = t := by
  cases s <;> cases t <;> simp_all [Spec.Setting.entry]

/-- Adding settings one by one. -/
def addAll : ArgMatches → List Setting → Except ArgStop ArgMatches
  | m, [] => .ok m
  | m, s :: ss =>
    match m.add s.entry.1 s.entry.2 with
    | .error e => .error e
    | .ok m' => addAll m' ss

theorem addAll_ok {ss : List Setting} {m m' : ArgMatches} :
    addAll m ss = .ok m' ↔ m' = m ++ ss.map Spec.Setting.entry ∧ Once ss ∧
      ∀ s ∈ ss, s.entry.1 ∉ m.map Prod.fst := by
  induction ss generalizing m with
  | nil => simp [addAll, Once, eq_comm]
  | cons s ss ih =>
    simp only [addAll, ArgMatches.add]
    by_cases h : s.entry.1 ∈ m.map Prod.fst
    · simp only [h, if_true, reduceCtorEq, false_iff]
      rintro ⟨_, _, h3⟩
      exact h3 s (List.mem_cons_self ..) h
    · simp only [h, if_false]
      rw [ih]
      simp only [Once, List.pairwise_cons, List.map_cons, List.append_assoc, List.singleton_append,
        List.mem_cons, forall_eq_or_imp, List.map_append, List.mem_append, List.map_nil,
        List.not_mem_nil, or_false, not_or, sameOption_iff]
      constructor
      · rintro ⟨h1, h2, h3⟩
        exact ⟨h1, ⟨fun t ht e => (h3 t ht).2 e.symm, h2⟩, h, fun t ht => (h3 t ht).1⟩
      · rintro ⟨h1, ⟨h2, h2'⟩, _, h3⟩
        exact ⟨h1, h2', fun t ht => ⟨h3 t ht, fun e => h2 t ht e.symm⟩⟩

theorem addAll_error {ss : List Setting} {m : ArgMatches} {e : ArgStop} (h : addAll m ss = .error e) :
    e = .usage := by
  induction ss generalizing m with
  | nil => simp [addAll] at h
  | cons s ss ih =>
    simp only [addAll, ArgMatches.add] at h
    by_cases hm : s.entry.1 ∈ m.map Prod.fst
    · simp only [hm, if_true, Except.error.injEq] at h; exact h.symm
    · simp only [hm, if_false] at h; exact ih h

/-! ### Numbers -/

theorem digit_iff (c : Char) : c.isDigit = true ↔ c ∈ "0123456789".toList := by
  constructor
  · intro h
    have h' : 48 ≤ c.toNat ∧ c.toNat ≤ 57 := by
      simp only [Char.isDigit, Bool.and_eq_true, decide_eq_true_eq] at h
      exact ⟨h.1, h.2⟩
    have e : c = Char.ofNat c.toNat := (Char.ofNat_toNat c).symm
    obtain ⟨h1, h2⟩ := h'
    generalize c.toNat = n at *
    subst e
    interval_cases n <;> decide
  · intro h
    have : ∀ c ∈ "0123456789".toList, c.isDigit = true := by decide
    exact this c h

theorem foldl_decimal (ds : List Char) (acc : Nat) :
    ds.foldl (fun acc c => acc * 10 + (c.toNat - '0'.toNat)) acc = acc * 10 ^ ds.length + decimal ds := by
  induction ds generalizing acc with
  | nil => simp [decimal]
  | cons d ds ih =>
    rw [List.foldl_cons, ih, decimal, List.length_cons, Nat.pow_succ]
    have : '0'.toNat = 48 := rfl
    rw [this]
    ring

theorem parseUsize_iff (w : String) (n : Nat) : parseUsize w.toList = some n ↔ Numeral w n := by
  have key : ∀ ds : List Char, (if ds.isEmpty || !ds.all Char.isDigit then none
      else
        let n := ds.foldl (fun acc c => acc * 10 + (c.toNat - '0'.toNat)) 0
        if n < 2 ^ 64 then some n else none) = some n ↔
      ds ≠ [] ∧ (∀ d ∈ ds, d ∈ "0123456789".toList) ∧ n = decimal ds ∧ n < 2 ^ 64 := by
    intro ds
    simp only [foldl_decimal, Nat.zero_mul, Nat.zero_add]
    by_cases h1 : ds = []
    · simp [h1]
    · by_cases h2 : ds.all Char.isDigit = true
      · have h3 : ds.isEmpty = false := by simp [h1]
        have h4 : ∀ d ∈ ds, d ∈ "0123456789".toList := fun d hd =>
          (digit_iff d).1 (List.all_eq_true.1 h2 d hd)
        simp only [h3, h2, Bool.not_true, Bool.or_self, Bool.false_eq_true, if_false, ne_eq, h1,
          not_false_eq_true, true_and]
        constructor
        · intro h
          split at h
          · injection h with h; subst h; exact ⟨h4, rfl, by assumption⟩
          · cases h
        · rintro ⟨_, rfl, h⟩; rw [if_pos h]
      · simp only [h2, Bool.not_false, Bool.or_true, if_true, reduceCtorEq, false_iff]
        rintro ⟨_, h, _⟩
        exact h2 (List.all_eq_true.2 (fun d hd => (digit_iff d).2 (h d hd)))
  unfold parseUsize
  constructor
  · intro h
    split at h
    · next r e => exact ⟨r, .inr e, (key r).1 h⟩
    · exact ⟨w.toList, .inl rfl, (key _).1 h⟩
  · rintro ⟨ds, h | h, h2⟩
    · split
      · next r e =>
        exfalso
        have : '+' ∈ "0123456789".toList := h2.2.1 '+' (by rw [← h, e]; exact List.mem_cons_self ..)
        exact absurd this (by decide)
      · rw [h]; exact (key ds).2 h2
    · rw [h]; exact (key ds).2 h2

/-! ### Words -/

theorem splitEq_none {n : List Char} (h : '=' ∉ n) : splitEq n = (n, none) := by
  induction n with
  | nil => rfl
  | cons c n ih =>
    simp only [List.mem_cons, not_or] at h
    simp [splitEq, ih h.2, Ne.symm h.1]

theorem splitEq_some {n : List Char} (h : '=' ∉ n) (v : List Char) :
    splitEq (n ++ '=' :: v) = (n, some v) := by
  induction n with
  | nil => rfl
  | cons c n ih =>
    simp only [List.mem_cons, not_or] at h
    simp [splitEq, ih h.2, Ne.symm h.1]

theorem splitEq_join (cs : List Char) :
    cs = (splitEq cs).1 ++ (match (splitEq cs).2 with | none => [] | some v => '=' :: v) := by
  induction cs with
  | nil => rfl
  | cons c cs ih =>
    by_cases h : c = '='
    · subst h; simp [splitEq]
    · simp only [splitEq, h, if_false, List.cons_append, ← ih]

/-- A long name of an option. -/
theorem long_names {name : String} {k : ArgKey} (h : longNames.lookup name = some k) :
    (name, k) ∈ longNames := by
  have : ∀ l : List (String × ArgKey), l.lookup name = some k → (name, k) ∈ l := by
    intro l
    induction l with
    | nil => simp
    | cons a l ih =>
      obtain ⟨x, y⟩ := a
      rw [List.lookup_cons]
      split
      · next hb => intro e; injection e with e; subst e
                   have := eq_of_beq hb; subst this; exact List.mem_cons_self ..
      · intro e; exact List.mem_cons_of_mem _ (ih e)
  exact this _ h

theorem longNames_ok : ∀ e ∈ longNames, '=' ∉ e.1.toList ∧ e.1.toList ≠ [] ∧
    longNames.lookup e.1 = some e.2 := by decide

theorem wordKind_long {name : String} {k : ArgKey} (h : longNames.lookup name = some k) :
    wordKind ("--" ++ name) = .long name none := by
  obtain ⟨h1, h2, _⟩ := longNames_ok _ (long_names h)
  have e : ("--" ++ name).toList = '-' :: '-' :: name.toList := by
    rw [String.toList_append]; rfl
  unfold wordKind
  rw [e]
  cases hn : name.toList with
  | nil => exact absurd hn h2
  | cons c cs =>
    show WordKind.long (String.ofList (splitEq (c :: cs)).1) (splitEq (c :: cs)).2 = _
    rw [← hn, splitEq_none h1]
    simp

theorem wordKind_longEq {name : String} {k : ArgKey} (h : longNames.lookup name = some k) (w : String) :
    wordKind ("--" ++ name ++ "=" ++ w) = .long name (some w.toList) := by
  obtain ⟨h1, h2, _⟩ := longNames_ok _ (long_names h)
  have e : ("--" ++ name ++ "=" ++ w).toList = '-' :: '-' :: (name.toList ++ '=' :: w.toList) := by
    simp only [String.toList_append]
    show '-' :: '-' :: name.toList ++ ['='] ++ w.toList = _
    simp
  unfold wordKind
  rw [e]
  have : splitEq (name.toList ++ '=' :: w.toList) = _ := splitEq_some h1 _
  cases hn : name.toList with
  | nil => exact absurd hn h2
  | cons c cs =>
    show WordKind.long (String.ofList (splitEq (c :: cs ++ '=' :: w.toList)).1)
      (splitEq (c :: cs ++ '=' :: w.toList)).2 = _
    rw [← hn, this]
    simp

theorem wordKind_plain {w : String} (h : ¬ Dashed w) : wordKind w = .plain := by
  unfold wordKind
  unfold Dashed at h
  split <;> first | rfl | (exfalso; apply h; exact ⟨_, _, by assumption⟩)

theorem plain_of_wordKind {w : String} (h : wordKind w = .plain) : ¬ Dashed w := by
  rintro ⟨c, cs, e⟩
  unfold wordKind at h
  rw [e] at h
  split at h
  · cases h
  · cases h
  · cases h
  · next h1 h2 h3 => exact h3 _ _ rfl

theorem dashed_of_wordKind {w : String} (h : wordKind w ≠ .plain) : Dashed w :=
  Classical.byContradiction fun hd => h (wordKind_plain hd)

theorem escape_of_wordKind {w : String} (h : wordKind w = .escape) : w = "--" := by
  unfold wordKind at h
  split at h
  · next e => exact String.toList_inj.1 e
  · cases h
  · cases h
  · cases h

theorem long_of_wordKind {w name : String} {v : Option (List Char)} (h : wordKind w = .long name v) :
    w = v.elim ("--" ++ name) (fun v => "--" ++ name ++ "=" ++ String.ofList v) := by
  unfold wordKind at h
  split at h
  · cases h
  · next cs _ e =>
    injection h with h1 h2
    subst h1 h2
    apply String.toList_inj.1
    rw [e]
    have hj := splitEq_join cs
    cases hv : (splitEq cs).2 with
    | none =>
      rw [hv] at hj
      simp only [List.append_nil] at hj
      simp only [Option.elim, String.toList_append, String.toList_ofList, ← hj]
      rfl
    | some v =>
      rw [hv] at hj
      simp only [Option.elim, String.toList_append, String.toList_ofList]
      show '-' :: '-' :: cs = '-' :: '-' :: (splitEq cs).1 ++ ['='] ++ v
      rw [List.append_assoc, List.cons_append, List.cons_append]
      show _ = '-' :: '-' :: ((splitEq cs).1 ++ '=' :: v)
      rw [← hj]
  · cases h
  · cases h

theorem short_of_wordKind {w : String} {c : Char} {cs : List Char} (h : wordKind w = .short c cs) :
    w.toList = '-' :: c :: cs ∧ c ≠ '-' := by
  unfold wordKind at h
  split at h
  · cases h
  · cases h
  · next c' cs' h1 h2 e =>
    injection h with h3 h4
    subst h3 h4
    exact ⟨e, fun hc => h2 hc⟩
  · cases h

theorem wordKind_short {w : String} {c : Char} {cs : List Char} (h : w.toList = '-' :: c :: cs) (hc : c ≠ '-') :
    wordKind w = .short c cs := by
  unfold wordKind
  rw [h]
  split
  · next e => exact absurd (by simp_all) hc
  · next e => exact absurd (by simp_all) hc
  · next e => simp_all
  · next h3 => exact absurd rfl (h3 _ _)

/-! ### One setting -/

theorem path_parse (w : String) (h : w ≠ "") :
    ValueParser.path.parse w.toList = some (.path (Path.ofString w)) := by
  have : w.toList.isEmpty = false := by
    cases e : w.toList with
    | nil => exact absurd (String.toList_inj.1 (by rw [e]; rfl)) h
    | cons _ _ => rfl
  simp [ValueParser.parse, this, Path.ofString]

theorem valued_entry {s : Setting} {name w : String} (h : Valued s name w) :
    ∃ long p, name = "--" ++ long ∧ longNames.lookup long = some (.arg s.entry.1) ∧
      s.entry.1.parser = some p ∧ p.parse w.toList = some s.entry.2 := by
  cases h with
  | configFile hw => exact ⟨"config-file", .path, rfl, rfl, rfl, path_parse _ hw⟩
  | schemaPath hw => exact ⟨"schema-path", .path, rfl, rfl, rfl, path_parse _ hw⟩
  | customScalarPrefix =>
    exact ⟨"custom-scalar-prefix", .string, rfl, rfl, rfl, by simp [ValueParser.parse, Spec.Setting.entry]⟩
  | rootDirImportPrefix =>
    exact ⟨"root-dir-import-prefix", .string, rfl, rfl, rfl, by simp [ValueParser.parse, Spec.Setting.entry]⟩
  | globalTypesModuleName =>
    exact ⟨"global-types-module-name", .string, rfl, rfl, rfl, by simp [ValueParser.parse, Spec.Setting.entry]⟩
  | typedGraphqlDocumentnodeModuleName =>
    exact ⟨"typed-graphql-documentnode-module-name", .string, rfl, rfl, rfl,
      by simp [ValueParser.parse, Spec.Setting.entry]⟩
  | numThreads hn =>
    exact ⟨"num-threads", .usize, rfl, rfl, rfl,
      by simp [ValueParser.parse, Spec.Setting.entry, (parseUsize_iff _ _).2 hn]⟩

theorem path_of_parse {v : List Char} {x : ArgVal} (h : ValueParser.path.parse v = some x) :
    String.ofList v ≠ "" ∧ x = .path (Path.ofString (String.ofList v)) := by
  simp only [ValueParser.parse] at h
  split at h
  · cases h
  · next hv =>
    injection h with h
    refine ⟨fun e => hv ?_, by rw [← h]; simp [Path.ofString]⟩
    have := congrArg String.toList e
    rw [String.toList_ofList] at this
    rw [this]; rfl

theorem value_setting {long : String} {id : ArgId} {p : ValueParser} {v : List Char} {x : ArgVal}
    (hl : longNames.lookup long = some (.arg id)) (hp : id.parser = some p) (hx : p.parse v = some x) :
    ∃ s, Valued s ("--" ++ long) (String.ofList v) ∧ s.entry = (id, x) := by
  have hm := long_names hl
  simp only [longNames, List.mem_cons, Prod.mk.injEq, ArgKey.arg.injEq, reduceCtorEq, and_false,
    List.not_mem_nil, or_false, false_or] at hm
  rcases hm with ⟨rfl, rfl⟩ | ⟨rfl, rfl⟩ | ⟨rfl, rfl⟩ | ⟨rfl, rfl⟩ | ⟨rfl, rfl⟩ | ⟨rfl, rfl⟩ | ⟨rfl, rfl⟩ |
    ⟨rfl, rfl⟩ | ⟨rfl, rfl⟩ | ⟨rfl, rfl⟩ | ⟨rfl, rfl⟩ <;> cases hp
  · obtain ⟨h1, rfl⟩ := path_of_parse hx
    exact ⟨_, .configFile h1, rfl⟩
  · obtain ⟨h1, rfl⟩ := path_of_parse hx
    exact ⟨_, .schemaPath h1, rfl⟩
  · injection hx with hx; subst hx; exact ⟨_, .customScalarPrefix, rfl⟩
  · injection hx with hx; subst hx; exact ⟨_, .rootDirImportPrefix, rfl⟩
  · injection hx with hx; subst hx; exact ⟨_, .globalTypesModuleName, rfl⟩
  · injection hx with hx; subst hx; exact ⟨_, .typedGraphqlDocumentnodeModuleName, rfl⟩
  · simp only [ValueParser.parse, Option.map_eq_some_iff] at hx
    obtain ⟨n, hn, rfl⟩ := hx
    exact ⟨_, .numThreads ((parseUsize_iff _ _).1 (by rw [String.toList_ofList]; exact hn)), rfl⟩

theorem switch_setting {long : String} {id : ArgId}
    (hl : longNames.lookup long = some (.arg id)) (hp : id.parser = none) :
    ∃ s, Switch s ("--" ++ long) ∧ s.entry = (id, .set) := by
  have hm := long_names hl
  simp only [longNames, List.mem_cons, Prod.mk.injEq, ArgKey.arg.injEq, reduceCtorEq, and_false,
    List.not_mem_nil, or_false, false_or] at hm
  rcases hm with ⟨rfl, rfl⟩ | ⟨rfl, rfl⟩ | ⟨rfl, rfl⟩ | ⟨rfl, rfl⟩ | ⟨rfl, rfl⟩ | ⟨rfl, rfl⟩ | ⟨rfl, rfl⟩ |
    ⟨rfl, rfl⟩ | ⟨rfl, rfl⟩ | ⟨rfl, rfl⟩ | ⟨rfl, rfl⟩ <;> cases hp
  · exact ⟨_, .useCustomScalars, rfl⟩
  · exact ⟨_, .disableReadonlyTypes, rfl⟩
  · exact ⟨_, .showDeprecationWarnings, rfl⟩
  · exact ⟨_, .noColor, rfl⟩

theorem short_lookup {c : Char} {k : ArgKey} (h : shortNames.lookup c = some k) :
    (c = 'h' ∧ k = .help) ∨ (c = 'V' ∧ k = .version) ∨ (c = 'c' ∧ k = .arg .configFile) ∨
      (c = 's' ∧ k = .arg .schemaPath) := by
  simp only [shortNames, List.lookup_cons, List.lookup_nil] at h
  split at h
  · next hb => injection h with h; exact .inl ⟨eq_of_beq hb, h.symm⟩
  · split at h
    · next hb => injection h with h; exact .inr (.inl ⟨eq_of_beq hb, h.symm⟩)
    · split at h
      · next hb => injection h with h; exact .inr (.inr (.inl ⟨eq_of_beq hb, h.symm⟩))
      · split at h
        · next hb => injection h with h; exact .inr (.inr (.inr ⟨eq_of_beq hb, h.symm⟩))
        · cases h

theorem abbreviated_entry {s : Setting} {name short w : String} (hv : Valued s name w)
    (h : Abbreviated name short) : ∃ c, short.toList = ['-', c] ∧ c ≠ '-' ∧
      shortNames.lookup c = some (.arg s.entry.1) ∧ s.entry.1.parser = some .path ∧
      ValueParser.path.parse w.toList = some s.entry.2 := by
  cases h with
  | configFile =>
    generalize hn : "--config-file" = name at hv
    cases hv with
    | configFile hw => exact ⟨'c', rfl, by decide, rfl, rfl, path_parse _ hw⟩
    | _ => exact absurd hn (by decide)
  | schemaPath =>
    generalize hn : "--schema-path" = name at hv
    cases hv with
    | schemaPath hw => exact ⟨'s', rfl, by decide, rfl, rfl, path_parse _ hw⟩
    | _ => exact absurd hn (by decide)

/-- The rest of the scan after a setting was added. -/
def scanThen (m : ArgMatches) (s : Setting) (rest : List String) : Except ArgStop ArgMatches :=
  match m.add s.entry.1 s.entry.2 with
  | .error e => .error e
  | .ok m' => scanArgs rest none m'

theorem written_scan {s : Setting} {ws : List String} (h : Written s ws) (m : ArgMatches) (rest : List String) :
    scanArgs (ws ++ rest) none m = scanThen m s rest := by
  cases h with
  | switch h => cases h <;> rfl
  | equals h =>
    obtain ⟨long, p, rfl, hl, hp, hx⟩ := valued_entry h
    simp only [List.singleton_append, scanArgs, wordKind_longEq hl, hl, hp, ArgMatches.addValue, hx, scanThen]
    rfl
  | next h hd =>
    obtain ⟨long, p, rfl, hl, hp, hx⟩ := valued_entry h
    simp only [List.cons_append, List.nil_append, scanArgs, wordKind_long hl, wordKind_plain hd, hl, hp,
      ArgMatches.addValue, hx, scanThen]
    rfl
  | @shortEquals _ _ _ w h ha =>
    obtain ⟨c, hs, hc, hl, hp, hx⟩ := abbreviated_entry h ha
    have hk : wordKind (_ ++ "=" ++ w) = .short c ('=' :: w.toList) :=
      wordKind_short (by rw [String.toList_append, String.toList_append, hs]; rfl) hc
    simp only [List.singleton_append, scanArgs, hk, hl, hp, ArgMatches.addValue, hx, scanThen]
    rfl
  | shortNext h ha hd =>
    obtain ⟨c, hs, hc, hl, hp, hx⟩ := abbreviated_entry h ha
    simp only [List.cons_append, List.nil_append, scanArgs, wordKind_short hs hc, wordKind_plain hd, hl, hp,
      ArgMatches.addValue, hx, scanThen]
    rfl
  | @shortAttached _ _ _ w h ha heq =>
    obtain ⟨c, hs, hc, hl, hp, hx⟩ := abbreviated_entry h ha
    have hk : wordKind (_ ++ w) = .short c w.toList :=
      wordKind_short (by rw [String.toList_append, hs]; rfl) hc
    cases hw : w.toList with
    | nil => rw [hw] at hx; cases hx
    | cons d ds =>
      have hd : d ≠ '=' := fun e => heq (by rw [hw, e]; rfl)
      rw [hw] at hk hx
      simp only [List.singleton_append, scanArgs, hk, hl, hp, ArgMatches.addValue]
      split
      · next e => cases e
      · next e => cases e
      · next e => injection e with e; exact absurd e hd
      · next e _ _ => cases e; simp only [hx, scanThen]; rfl
  | directory hw hd =>
    simp only [List.singleton_append, scanArgs, wordKind_plain hd, ArgMatches.addValue, path_parse _ hw, scanThen]
    rfl

theorem words_scan {ss : List Setting} {ws : List String} (h : Words ss ws) (m : ArgMatches) (rest : List String) :
    scanArgs (ws ++ rest) none m =
      match addAll m ss with
      | .error e => .error e
      | .ok m' => scanArgs rest none m' := by
  induction h generalizing m with
  | nil => rfl
  | cons hw _ ih =>
    rw [List.append_assoc, written_scan hw]
    simp only [scanThen, addAll]
    split
    · rfl
    · rw [ih]

theorem help_scan {w : String} (h : AsksHelp w) (ws : List String) (m : ArgMatches) :
    scanArgs (w :: ws) none m = .error .help := by
  rcases h with rfl | ⟨cs, h⟩
  · rfl
  · simp only [scanArgs, wordKind_short h (by decide)]
    rfl

theorem version_scan {w : String} (h : AsksVersion w) (ws : List String) (m : ArgMatches) :
    scanArgs (w :: ws) none m = .error .version := by
  rcases h with rfl | ⟨cs, h⟩
  · rfl
  · simp only [scanArgs, wordKind_short h (by decide)]
    rfl

theorem dashes_scan (ws : List String) (m : ArgMatches) :
    scanArgs ("--" :: ws) none m = scanTrailing ws m := rfl

/-! ### Every command line -/

theorem pending_cases (id : ArgId) (p : ValueParser) (ws : List String) :
    (∃ w rest x, ws = w :: rest ∧ ¬ Dashed w ∧ p.parse w.toList = some x) ∨
      ∀ m, scanArgs ws (some (id, p)) m = .error .usage := by
  cases ws with
  | nil => exact .inr fun m => rfl
  | cons w rest =>
    cases hk : wordKind w with
    | plain =>
      cases hx : p.parse w.toList with
      | some x => exact .inl ⟨w, rest, x, rfl, plain_of_wordKind hk, hx⟩
      | none => exact .inr fun m => by simp only [scanArgs, hk, ArgMatches.addValue, hx]
    | escape => exact .inr fun m => by simp only [scanArgs, hk]
    | long _ _ => exact .inr fun m => by simp only [scanArgs, hk]
    | short _ _ => exact .inr fun m => by simp only [scanArgs, hk]

/-- What a command line begins with. -/
theorem first_word (w : String) (ws : List String) :
    w = "--" ∨ AsksHelp w ∨ AsksVersion w ∨ (∃ s ws' rest, w :: ws = ws' ++ rest ∧ ws' ≠ [] ∧ Written s ws') ∨
      ∀ m, scanArgs (w :: ws) none m = .error .usage := by
  cases hk : wordKind w with
  | escape => exact .inl (escape_of_wordKind hk)
  | plain =>
    by_cases hw : w = ""
    · subst hw; exact .inr (.inr (.inr (.inr fun m => rfl)))
    · exact .inr (.inr (.inr (.inl ⟨_, [w], ws, rfl, by simp, .directory hw (plain_of_wordKind hk)⟩)))
  | long name v =>
    have he := long_of_wordKind hk
    cases hl : longNames.lookup name with
    | none => exact .inr (.inr (.inr (.inr fun m => by simp only [scanArgs, hk, hl])))
    | some k =>
      cases k with
      | help =>
        have hn : name = "help" := by
          have := long_names hl
          simpa [longNames] using this
        cases v with
        | none => exact .inr (.inl (.inl (by rw [he, hn]; rfl)))
        | some v => exact .inr (.inr (.inr (.inr fun m => by simp only [scanArgs, hk, hl])))
      | version =>
        have hn : name = "version" := by
          have := long_names hl
          simpa [longNames] using this
        cases v with
        | none => exact .inr (.inr (.inl (.inl (by rw [he, hn]; rfl))))
        | some v => exact .inr (.inr (.inr (.inr fun m => by simp only [scanArgs, hk, hl])))
      | arg id =>
        refine .inr (.inr (.inr ?_))
        cases hp : id.parser with
        | none =>
          cases v with
          | none =>
            obtain ⟨s, hs, _⟩ := switch_setting hl hp
            exact .inl ⟨s, [w], ws, rfl, by simp, by rw [he]; exact .switch hs⟩
          | some v => exact .inr fun m => by simp only [scanArgs, hk, hl, hp]
        | some p =>
          cases v with
          | some v =>
            cases hx : p.parse v with
            | none => exact .inr fun m => by simp only [scanArgs, hk, hl, hp, ArgMatches.addValue, hx]
            | some x =>
              obtain ⟨s, hs, _⟩ := value_setting hl hp hx
              exact .inl ⟨s, [w], ws, rfl, by simp, by rw [he]; exact .equals hs⟩
          | none =>
            rcases pending_cases id p ws with ⟨w', rest, x, rfl, hd, hx⟩ | hbad
            · obtain ⟨s, hs, _⟩ := value_setting hl hp hx
              rw [String.ofList_toList] at hs
              exact .inl ⟨s, [w, w'], rest, rfl, by simp, by rw [he]; exact .next hs hd⟩
            · exact .inr fun m => by simp only [scanArgs, hk, hl, hp]; exact hbad m
  | short c cs =>
    obtain ⟨ht, hc⟩ := short_of_wordKind hk
    cases hl : shortNames.lookup c with
    | none => exact .inr (.inr (.inr (.inr fun m => by simp only [scanArgs, hk, hl])))
    | some k =>
      have common : ∀ (name short : String) (id : ArgId) (mk : Path → Setting), k = .arg id → id.parser = some .path →
          short.toList = ['-', c] → Abbreviated name short →
          (∀ v : String, v ≠ "" → Valued (mk (Path.ofString v)) name v) →
          (∃ s ws' rest, w :: ws = ws' ++ rest ∧ ws' ≠ [] ∧ Written s ws') ∨
            ∀ m, scanArgs (w :: ws) none m = .error .usage := by
        intro name short id mk hkid hp hs ha hv
        subst hkid
        cases hcs : cs with
        | nil =>
          rw [hcs] at ht hk
          have hw : w = short := String.toList_inj.1 (by rw [ht, hs])
          rcases pending_cases id .path ws with ⟨w', rest, x, rfl, hd, hx⟩ | hbad
          · have := (path_of_parse hx).1
            rw [String.ofList_toList] at this
            exact .inl ⟨_, [w, w'], rest, rfl, by simp, by rw [hw]; exact .shortNext (hv w' this) ha hd⟩
          · exact .inr fun m => by simp only [scanArgs, hk, hl, hp]; exact hbad m
        | cons d ds =>
          rw [hcs] at ht hk
          by_cases hd : d = '='
          · subst hd
            cases hx : ValueParser.path.parse ds with
            | none => exact .inr fun m => by simp only [scanArgs, hk, hl, hp, ArgMatches.addValue, hx]
            | some x =>
              refine .inl ⟨mk (Path.ofString (String.ofList ds)), [w], ws, rfl, by simp, ?_⟩
              have hw : w = short ++ "=" ++ String.ofList ds := by
                apply String.toList_inj.1
                rw [String.toList_append, String.toList_append, ht, hs]; simp
              rw [hw]
              exact .shortEquals (hv _ (path_of_parse hx).1) ha
          · refine .inl ⟨mk (Path.ofString (String.ofList (d :: ds))), [w], ws, rfl, by simp, ?_⟩
            have hw : w = short ++ String.ofList (d :: ds) := by
              apply String.toList_inj.1
              rw [String.toList_append, ht, hs, String.toList_ofList]; rfl
            rw [hw]
            refine .shortAttached (hv _ ?_) ha ?_
            · intro e
              have := congrArg String.toList e
              rw [String.toList_ofList] at this
              cases this
            · rw [String.toList_ofList]
              simpa using hd
      rcases short_lookup hl with ⟨rfl, rfl⟩ | ⟨rfl, rfl⟩ | ⟨rfl, rfl⟩ | ⟨rfl, rfl⟩
      · exact .inr (.inl (.inr ⟨cs, ht⟩))
      · exact .inr (.inr (.inl (.inr ⟨cs, ht⟩)))
      · exact .inr (.inr (.inr (common "--config-file" "-c" .configFile .configFile rfl rfl rfl .configFile
          (fun v hv => .configFile hv))))
      · exact .inr (.inr (.inr (common "--schema-path" "-s" .schemaPath .schemaPath rfl rfl rfl .schemaPath
          (fun v hv => .schemaPath hv))))

/-- How the settings at the beginning of a command line end. -/
inductive Ends : List String → Prop where
  | done : Ends []
  | dashes (ws : List String) : Ends ("--" :: ws)
  | help {w : String} (h : AsksHelp w) (ws : List String) : Ends (w :: ws)
  | version {w : String} (h : AsksVersion w) (ws : List String) : Ends (w :: ws)
  | bad {ws : List String} (h : ∀ m, scanArgs ws none m = .error .usage) : Ends ws

theorem decompose (ws : List String) :
    ∃ ss ws₁ ws₂, ws = ws₁ ++ ws₂ ∧ Words ss ws₁ ∧ Ends ws₂ := by
  induction hn : ws.length using Nat.strong_induction_on generalizing ws with
  | _ n ih =>
    cases ws with
    | nil => exact ⟨[], [], [], rfl, .nil, .done⟩
    | cons w ws =>
      rcases first_word w ws with rfl | h | h | ⟨s, ws', rest, he, hne, hw⟩ | h
      · exact ⟨[], [], _, rfl, .nil, .dashes ws⟩
      · exact ⟨[], [], _, rfl, .nil, .help h ws⟩
      · exact ⟨[], [], _, rfl, .nil, .version h ws⟩
      · have hlen : rest.length < n := by
          have : (w :: ws).length = ws'.length + rest.length := by rw [he, List.length_append]
          have : 0 < ws'.length := List.length_pos_iff.2 hne
          omega
        obtain ⟨ss, ws₁, ws₂, rfl, h1, h2⟩ := ih _ hlen rest rfl
        exact ⟨s :: ss, ws' ++ ws₁, ws₂, by rw [he, List.append_assoc], .cons hw h1, h2⟩
      · exact ⟨[], [], _, rfl, .nil, .bad h⟩

end Qlc
