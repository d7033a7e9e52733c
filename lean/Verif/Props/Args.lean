import Verif.Lemmas.Args
/-
C93: the command line.
-/
set_option autoImplicit false

namespace Qlc
open Spec

theorem lookup_entry {ss : List Setting} (h : Once ss) (s : Setting) :
    s ∈ ss ↔ (ss.map Spec.Setting.entry).lookup s.entry.1 = some s.entry.2 := by
  induction ss with
  | nil => simp
  | cons t ss ih =>
    obtain ⟨h1, h2⟩ := List.pairwise_cons.1 h
    rw [List.map_cons, List.lookup_cons, List.mem_cons]
    by_cases e : s.entry.1 = t.entry.1
    · simp only [e, beq_self_eq_true, Option.some.injEq]
      constructor
      · rintro (rfl | hm)
        · rfl
        · exact absurd ((sameOption_iff t s).2 e.symm) (h1 s hm)
      · intro e2
        exact .inl (entry_inj (Prod.ext e e2.symm))
    · have hb : (s.entry.1 == t.entry.1) = false := by simpa using e
      simp only [hb]
      rw [← ih h2]
      constructor
      · rintro (rfl | hm)
        · exact absurd rfl e
        · exact hm
      · exact .inr

theorem mem_entry {ss : List Setting} (s : Setting) (hs : ∀ t : Setting, t.entry.1 = s.entry.1 → t = s) :
    ArgMatches.flag (ss.map Spec.Setting.entry) s.entry.1 = true ↔ s ∈ ss := by
  simp only [ArgMatches.flag, decide_eq_true_eq, List.mem_map, exists_exists_and_eq_and]
  constructor
  · rintro ⟨t, ht, e⟩; rw [← hs t e]; exact ht
  · intro h; exact ⟨s, h, rfl⟩

theorem path_entry {ss : List Setting} (h : Once ss) (mk : Path → Setting) (id : ArgId)
    (hmk : ∀ p, (mk p).entry = (id, .path p)) (p : Path) :
    ArgMatches.path (ss.map Spec.Setting.entry) id = some p ↔ mk p ∈ ss := by
  rw [lookup_entry h, hmk]
  simp only [ArgMatches.path]
  split
  · next q e => rw [e]; simp
  · next hn => simp only [reduceCtorEq, false_iff]; exact hn p

theorem str_entry {ss : List Setting} (h : Once ss) (mk : String → Setting) (id : ArgId)
    (hmk : ∀ p, (mk p).entry = (id, .str p)) (p : String) :
    ArgMatches.str (ss.map Spec.Setting.entry) id = some p ↔ mk p ∈ ss := by
  rw [lookup_entry h, hmk]
  simp only [ArgMatches.str]
  split
  · next q e => rw [e]; simp
  · next hn => simp only [reduceCtorEq, false_iff]; exact hn p

theorem num_entry {ss : List Setting} (h : Once ss) (mk : Nat → Setting) (id : ArgId)
    (hmk : ∀ p, (mk p).entry = (id, .num p)) (p : Nat) :
    ArgMatches.num (ss.map Spec.Setting.entry) id = some p ↔ mk p ∈ ss := by
  rw [lookup_entry h, hmk]
  simp only [ArgMatches.num]
  split
  · next q e => rw [e]; simp
  · next hn => simp only [reduceCtorEq, false_iff]; exact hn p

theorem means_ofMatches {ss : List Setting} (h : Once ss) :
    Means ss (.ofMatches (ss.map Spec.Setting.entry)) where
  rootDir := path_entry h .rootDir _ (fun _ => rfl)
  configFile := path_entry h .configFile _ (fun _ => rfl)
  schemaPath := path_entry h .schemaPath _ (fun _ => rfl)
  useCustomScalars := mem_entry .useCustomScalars (fun t e => by cases t <;> first | rfl | cases e)
  customScalarPrefix := str_entry h .customScalarPrefix _ (fun _ => rfl)
  rootDirImportPrefix := str_entry h .rootDirImportPrefix _ (fun _ => rfl)
  globalTypesModuleName := str_entry h .globalTypesModuleName _ (fun _ => rfl)
  typedGraphqlDocumentnodeModuleName := str_entry h .typedGraphqlDocumentnodeModuleName _ (fun _ => rfl)
  disableReadonlyTypes := mem_entry .disableReadonlyTypes (fun t e => by cases t <;> first | rfl | cases e)
  showDeprecationWarnings := mem_entry .showDeprecationWarnings (fun t e => by cases t <;> first | rfl | cases e)
  numThreads := num_entry h .numThreads _ (fun _ => rfl)
  noColor := mem_entry .noColor (fun t e => by cases t <;> first | rfl | cases e)

theorem means_unique {ss : List Setting} {a b : CliArgs} (ha : Means ss a) (hb : Means ss b) : a = b := by
  have ho : ∀ {α : Type} {x y : Option α} {P : α → Prop}, (∀ p, x = some p ↔ P p) → (∀ p, y = some p ↔ P p) →
      x = y := by
    intro α x y P h1 h2
    apply Option.ext
    intro p
    rw [h1, h2]
  have hB : ∀ {x y : Bool} {P : Prop}, (x = true ↔ P) → (y = true ↔ P) → x = y := by
    intro x y P h1 h2
    exact Bool.eq_iff_iff.2 (h1.trans h2.symm)
  obtain ⟨a1, a2, a3, a4, a5, a6, a7, a8, a9, a10, a11, a12⟩ := ha
  obtain ⟨b1, b2, b3, b4, b5, b6, b7, b8, b9, b10, b11, b12⟩ := hb
  cases a
  cases b
  simp only [CliArgs.mk.injEq]
  exact ⟨ho a1 b1, ho a2 b2, ho a3 b3, hB a4 b4, ho a5 b5, ho a6 b6, ho a7 b7, ho a8 b8, hB a9 b9, hB a10 b10,
    ho a11 b11, hB a12 b12⟩

theorem prefixAllowed_iff {ss : List Setting} :
    (ArgMatches.flag (ss.map Spec.Setting.entry) .customScalarPrefix &&
      !ArgMatches.flag (ss.map Spec.Setting.entry) .useCustomScalars) = true ↔ ¬ PrefixAllowed ss := by
  have h1 : ArgMatches.flag (ss.map Spec.Setting.entry) .customScalarPrefix = true ↔
      ∃ s, .customScalarPrefix s ∈ ss := by
    simp only [ArgMatches.flag, decide_eq_true_eq, List.mem_map, exists_exists_and_eq_and]
    constructor
    · rintro ⟨t, ht, e⟩
      cases t <;> first | exact ⟨_, ht⟩ | cases e
    · rintro ⟨s, h⟩; exact ⟨_, h, rfl⟩
  have h2 : ArgMatches.flag (ss.map Spec.Setting.entry) .useCustomScalars = true ↔ .useCustomScalars ∈ ss :=
    mem_entry .useCustomScalars (fun t e => by cases t <;> first | rfl | cases e)
  rw [Bool.and_eq_true, Bool.not_eq_true', ← Bool.not_eq_true, h1, h2]
  simp [PrefixAllowed]

theorem trailing_ok {ws : List String} {m m' : ArgMatches} (h : scanTrailing ws m = .ok m') :
    (ws = [] ∧ m' = m) ∨ ∃ w, ws = [w] ∧ w ≠ "" ∧
      m.add .rootDir (.path (Path.ofString w)) = .ok m' := by
  cases ws with
  | nil => simp only [scanTrailing, Except.ok.injEq] at h; exact .inl ⟨rfl, h.symm⟩
  | cons w ws =>
    refine .inr ⟨w, ?_⟩
    by_cases hw : w = ""
    · subst hw; cases h
    · simp only [scanTrailing, ArgMatches.addValue, path_parse w hw] at h
      cases ha : m.add .rootDir (.path (Path.ofString w)) with
      | error e => rw [ha] at h; cases h
      | ok m₁ =>
        rw [ha] at h
        simp only at h
        cases ws with
        | nil => simp only [scanTrailing] at h; exact ⟨rfl, hw, by rw [← h]⟩
        | cons w' ws =>
          exfalso
          have hin : ArgId.rootDir ∈ m₁.map Prod.fst := by
            simp only [ArgMatches.add] at ha
            split at ha
            · cases ha
            · injection ha with ha; subst ha; simp
          simp only [scanTrailing, ArgMatches.addValue] at h
          cases hp : ValueParser.path.parse w'.toList with
          | none => rw [hp] at h; cases h
          | some v => rw [hp] at h; simp [ArgMatches.add, hin] at h

theorem addAll_append (m : ArgMatches) (ss ts : List Setting) :
    addAll m (ss ++ ts) =
      match addAll m ss with
      | .error e => .error e
      | .ok m' => addAll m' ts := by
  induction ss generalizing m with
  | nil => rfl
  | cons s ss ih =>
    simp only [List.cons_append, addAll]
    cases m.add s.entry.1 s.entry.2 with
    | error e => rfl
    | ok m' => exact ih m'

theorem line_scan {ss : List Setting} {ws : List String} (h : CommandLine ss ws) :
    scanArgs ws none [] = addAll [] ss := by
  cases h with
  | plain hw =>
    have := words_scan hw [] []
    rw [List.append_nil] at this
    rw [this]
    cases addAll [] ss <;> rfl
  | dashes hw =>
    rw [words_scan hw]
    cases addAll [] ss <;> rfl
  | @directory ss ws w hw hne =>
    rw [words_scan hw, addAll_append]
    cases addAll [] ss with
    | error e => rfl
    | ok m =>
      simp only [dashes_scan, scanTrailing, ArgMatches.addValue, path_parse w hne, addAll, Spec.Setting.entry]
      rfl

theorem scan_ok_iff {ws : List String} {m : ArgMatches} :
    scanArgs ws none [] = .ok m ↔ ∃ ss, CommandLine ss ws ∧ Once ss ∧ m = ss.map Spec.Setting.entry := by
  constructor
  · intro h
    obtain ⟨ss, ws₁, ws₂, rfl, hw, he⟩ := decompose ws
    have hall : ∀ ss', CommandLine ss' (ws₁ ++ ws₂) →
        ∃ ss, CommandLine ss (ws₁ ++ ws₂) ∧ Once ss ∧ m = ss.map Spec.Setting.entry := by
      intro ss' hc
      rw [line_scan hc] at h
      obtain ⟨h1, h2, _⟩ := addAll_ok.1 h
      exact ⟨ss', hc, h2, h1⟩
    have hs := h
    rw [words_scan hw] at hs
    cases ha : addAll [] ss with
    | error e => rw [ha] at hs; cases hs
    | ok m₁ =>
      rw [ha] at hs
      simp only at hs
      cases he with
      | done => exact hall ss (by rw [List.append_nil]; exact .plain hw)
      | dashes ws =>
        rw [dashes_scan] at hs
        rcases trailing_ok hs with ⟨rfl, _⟩ | ⟨w, rfl, hne, _⟩
        · exact hall ss (.dashes hw)
        · exact hall _ (.directory hw hne)
      | help hh ws => rw [help_scan hh] at hs; cases hs
      | version hh ws => rw [version_scan hh] at hs; cases hs
      | bad hb => rw [hb] at hs; cases hs
  · rintro ⟨ss, hc, ho, rfl⟩
    rw [line_scan hc, addAll_ok.2 ⟨rfl, ho, by simp⟩]
    rfl

/-- **C93.** The program accepts exactly the command lines that are made of settings, no option twice and a scalar
prefix only with custom scalars; and then its arguments are what the settings say, whatever their order and
however they are written. -/
theorem C93_command_line (words : List String) (a : CliArgs) :
    parseArgs words = .ok a ↔
      ∃ ss, CommandLine ss words ∧ Once ss ∧ PrefixAllowed ss ∧ Means ss a := by
  unfold parseArgs
  constructor
  · intro h
    cases hs : scanArgs words none [] with
    | error e => rw [hs] at h; cases h
    | ok m =>
      rw [hs] at h
      obtain ⟨ss, hc, ho, rfl⟩ := scan_ok_iff.1 hs
      simp only at h
      split at h
      · cases h
      · next hp =>
        injection h with h
        subst h
        exact ⟨ss, hc, ho, Classical.byContradiction (fun hn => hp (prefixAllowed_iff.2 hn)), means_ofMatches ho⟩
  · rintro ⟨ss, hc, ho, hp, hm⟩
    rw [scan_ok_iff.2 ⟨ss, hc, ho, rfl⟩]
    simp only
    rw [if_neg (fun h => prefixAllowed_iff.1 h hp), means_unique hm (means_ofMatches ho)]

theorem scan_stop {words : List String} {e : ArgStop} (h : parseArgs words = .error e) (hu : e ≠ .usage) :
    ∃ ss before w after, words = before ++ w :: after ∧ Words ss before ∧ Once ss ∧
      ((e = .help ∧ AsksHelp w) ∨ (e = .version ∧ AsksVersion w)) := by
  unfold parseArgs at h
  cases hs : scanArgs words none [] with
  | ok m =>
    rw [hs] at h
    simp only at h
    split at h
    · injection h with h; exact absurd h.symm hu
    · cases h
  | error e' =>
    rw [hs] at h
    injection h with h
    subst h
    obtain ⟨ss, ws₁, ws₂, rfl, hw, he⟩ := decompose words
    rw [words_scan hw] at hs
    cases ha : addAll [] ss with
    | error e => rw [ha] at hs; injection hs with hs; exact absurd (hs ▸ addAll_error ha) hu
    | ok m₁ =>
      rw [ha] at hs
      obtain ⟨rfl, ho, _⟩ := addAll_ok.1 ha
      simp only at hs
      cases he with
      | done => cases hs
      | dashes ws =>
        exfalso
        rw [dashes_scan] at hs
        have : ∀ ws m, scanTrailing ws m = .error e' → e' = .usage := by
          intro ws
          induction ws with
          | nil => intro m h; cases h
          | cons w ws ih =>
            intro m h
            simp only [scanTrailing, ArgMatches.addValue, ArgMatches.add] at h
            cases hp : ValueParser.path.parse w.toList with
            | none => rw [hp] at h; injection h with h; exact h.symm
            | some v =>
              rw [hp] at h
              by_cases hin : ArgId.rootDir ∈ m.map Prod.fst
              · simp only [hin, if_true] at h; injection h with h; exact h.symm
              · simp only [hin, if_false] at h; exact ih _ h
        exact hu (this _ _ hs)
      | @help w hh ws =>
        rw [help_scan hh] at hs; injection hs with hs
        exact ⟨ss, ws₁, w, ws, rfl, hw, ho, .inl ⟨hs.symm, hh⟩⟩
      | @version w hh ws =>
        rw [version_scan hh] at hs; injection hs with hs
        exact ⟨ss, ws₁, w, ws, rfl, hw, ho, .inr ⟨hs.symm, hh⟩⟩
      | bad hb => rw [hb] at hs; injection hs with hs; exact absurd hs.symm hu

theorem asks_disjoint {w : String} (h : AsksHelp w) (h' : AsksVersion w) : False := by
  rcases h with rfl | ⟨cs, h⟩ <;> rcases h' with h' | ⟨cs', h'⟩
  · exact absurd h' (by decide)
  · have h' : '-' :: '-' :: "help".toList = '-' :: 'V' :: cs' := h'
    simp at h'
  · subst h'
    have h : '-' :: '-' :: "version".toList = '-' :: 'h' :: cs := h
    simp at h
  · rw [h] at h'; simp at h'

/-- **C93.** Help is shown exactly if a word that asks for it follows settings without repetition; what comes
after it does not matter. -/
theorem C93_help (words : List String) :
    parseArgs words = .error .help ↔
      ∃ ss before w after, words = before ++ w :: after ∧ Words ss before ∧ Once ss ∧ AsksHelp w := by
  constructor
  · intro h
    obtain ⟨ss, b, w, a, h1, h2, h3, ⟨_, h4⟩ | ⟨he, _⟩⟩ := scan_stop h (by simp)
    · exact ⟨ss, b, w, a, h1, h2, h3, h4⟩
    · cases he
  · rintro ⟨ss, b, w, a, rfl, h2, h3, h4⟩
    unfold parseArgs
    rw [words_scan h2, addAll_ok.2 ⟨rfl, h3, by simp⟩]
    simp only [help_scan h4]

/-- **C93.** The same for the version. -/
theorem C93_version (words : List String) :
    parseArgs words = .error .version ↔
      ∃ ss before w after, words = before ++ w :: after ∧ Words ss before ∧ Once ss ∧ AsksVersion w := by
  constructor
  · intro h
    obtain ⟨ss, b, w, a, h1, h2, h3, ⟨he, _⟩ | ⟨_, h4⟩⟩ := scan_stop h (by simp)
    · cases he
    · exact ⟨ss, b, w, a, h1, h2, h3, h4⟩
  · rintro ⟨ss, b, w, a, rfl, h2, h3, h4⟩
    unfold parseArgs
    rw [words_scan h2, addAll_ok.2 ⟨rfl, h3, by simp⟩]
    simp only [version_scan h4]

theorem once_perm {ss ss' : List Setting} (h : ss.Perm ss') : Once ss → Once ss' := by
  intro ho
  refine h.pairwise ho (fun {x y} hxy => ?_)
  rw [sameOption_iff] at hxy ⊢
  exact fun e => hxy e.symm

theorem means_perm {ss ss' : List Setting} (h : ss.Perm ss') {a : CliArgs} (hm : Means ss a) : Means ss' a := by
  obtain ⟨a1, a2, a3, a4, a5, a6, a7, a8, a9, a10, a11, a12⟩ := hm
  exact ⟨fun p => (a1 p).trans h.mem_iff, fun p => (a2 p).trans h.mem_iff, fun p => (a3 p).trans h.mem_iff,
    a4.trans h.mem_iff, fun p => (a5 p).trans h.mem_iff, fun p => (a6 p).trans h.mem_iff,
    fun p => (a7 p).trans h.mem_iff, fun p => (a8 p).trans h.mem_iff, a9.trans h.mem_iff, a10.trans h.mem_iff,
    fun p => (a11 p).trans h.mem_iff, a12.trans h.mem_iff⟩

/-- The parser decides by the settings, however the words are read as settings. -/
theorem line_parse {ss : List Setting} {ws : List String} (h : CommandLine ss ws) (a : CliArgs) :
    parseArgs ws = .ok a ↔ Once ss ∧ PrefixAllowed ss ∧ Means ss a := by
  constructor
  · intro hok
    unfold parseArgs at hok
    rw [line_scan h] at hok
    cases ha : addAll [] ss with
    | error e => rw [ha] at hok; cases hok
    | ok m =>
      rw [ha] at hok
      obtain ⟨rfl, ho, _⟩ := addAll_ok.1 ha
      simp only [List.nil_append] at hok
      split at hok
      · cases hok
      · next hp =>
        injection hok with hok
        subst hok
        exact ⟨ho, Classical.byContradiction (fun hn => hp (prefixAllowed_iff.2 hn)), means_ofMatches ho⟩
  · rintro ⟨h1, h2, h3⟩
    exact (C93_command_line ws a).2 ⟨ss, h, h1, h2, h3⟩

/-- **C93.** The order of the settings, and the way each is written, does not matter. -/
theorem C93_order_does_not_matter {ss ss' : List Setting} {ws ws' : List String} (h : CommandLine ss ws)
    (h' : CommandLine ss' ws') (hp : ss.Perm ss') (a : CliArgs) :
    parseArgs ws = .ok a ↔ parseArgs ws' = .ok a := by
  have key : ∀ {ss ss' : List Setting}, ss.Perm ss' → Once ss ∧ PrefixAllowed ss ∧ Means ss a →
      Once ss' ∧ PrefixAllowed ss' ∧ Means ss' a := by
    rintro ss ss' hp ⟨h1, h2, h3⟩
    exact ⟨once_perm hp h1, fun ⟨s, hs⟩ => (hp.mem_iff).1 (h2 ⟨s, hp.mem_iff.2 hs⟩), means_perm hp h3⟩
  rw [line_parse h, line_parse h']
  exact ⟨key hp, key hp.symm⟩

section Invocation
variable {ω : Path → Hash} {ω' : Hash} {fuel : Nat} {ext : Ext} {colours : Paint} {cpus : Nat}
  {readConfig : Path → ConfigRead} {readSchema : Path → SchemaRead} {tree : Path → Entry} {w : World}
  {words : List String} {i : Invocation}

/-- **C93.** An invocation runs qlc if and only if its words are a command line, and then with the arguments that
the settings mean, without colours if `--no-color` is among them.  Otherwise it is stopped, with status 0 if
settings are followed by a word that asks for help or the version, and with status 2 else. -/
theorem C93_invocation (h : Invokes ω ω' fuel ext colours cpus readConfig readSchema tree w words i) :
    (∃ ss a f, CommandLine ss words ∧ Once ss ∧ PrefixAllowed ss ∧ Means ss a ∧ i = .ran f ∧
      ∃ paint, Runs ω ω' fuel ext paint cpus readConfig readSchema tree w a f ∧
        (.noColor ∈ ss → ∀ style text, paint style text = text) ∧ (.noColor ∉ ss → paint = colours)) ∨
    ((¬ ∃ ss, CommandLine ss words ∧ Once ss ∧ PrefixAllowed ss) ∧
      ((∃ ss before w after, words = before ++ w :: after ∧ Words ss before ∧ Once ss ∧
          (AsksHelp w ∨ AsksVersion w)) → i = .stopped 0) ∧
      ((¬ ∃ ss before w after, words = before ++ w :: after ∧ Words ss before ∧ Once ss ∧
          (AsksHelp w ∨ AsksVersion w)) → i = .stopped 2)) := by
  cases h with
  | ran a f ha hr =>
    obtain ⟨ss, h1, h2, h3, h4⟩ := (C93_command_line words a).1 ha
    refine .inl ⟨ss, a, f, h1, h2, h3, h4, rfl, _, hr, ?_, ?_⟩
    · intro hn style text
      rw [h4.noColor.2 hn]; rfl
    · intro hn
      rw [if_neg (fun e => hn (h4.noColor.1 e))]
  | stopped e he =>
    refine .inr ⟨?_, ?_, ?_⟩
    · rintro ⟨ss, h1, h2, h3⟩
      rw [(C93_command_line words _).2 ⟨ss, h1, h2, h3, means_ofMatches h2⟩] at he
      cases he
    · rintro ⟨ss, b, w', a', h1, h2, h3, h4 | h4⟩
      · have := (C93_help words).2 ⟨ss, b, w', a', h1, h2, h3, h4⟩
        rw [this] at he; cases he; rfl
      · have := (C93_version words).2 ⟨ss, b, w', a', h1, h2, h3, h4⟩
        rw [this] at he; cases he; rfl
    · intro hn
      cases e with
      | usage => rfl
      | help =>
        obtain ⟨ss, b, w', a', h1, h2, h3, h4⟩ := (C93_help words).1 he
        exact absurd ⟨ss, b, w', a', h1, h2, h3, .inl h4⟩ hn
      | version =>
        obtain ⟨ss, b, w', a', h1, h2, h3, h4⟩ := (C93_version words).1 he
        exact absurd ⟨ss, b, w', a', h1, h2, h3, .inr h4⟩ hn

end Invocation

/-! ### Examples -/

deriving instance DecidableEq for CliArgs

/-- The same settings written in different ways and orders. -/
example : parseArgs ["src", "-sschema.json", "--num-threads=4", "--use-custom-scalars", "--custom-scalar-prefix",
      "Gql", "--no-color"] =
    .ok { rootDir := some ⟨false, ["src"]⟩, schemaPath := some ⟨false, ["schema.json"]⟩, numThreads := some 4,
          useCustomScalars := true, customScalarPrefix := some "Gql", noColor := true } ∧
    parseArgs ["--custom-scalar-prefix=Gql", "--num-threads", "+4", "--use-custom-scalars", "-s", "schema.json",
      "--no-color", "--", "src"] =
    .ok { rootDir := some ⟨false, ["src"]⟩, schemaPath := some ⟨false, ["schema.json"]⟩, numThreads := some 4,
          useCustomScalars := true, customScalarPrefix := some "Gql", noColor := true } := by decide +kernel

/-- Command lines that are refused, and requests for help and version. -/
example : parseArgs ["--custom-scalar-prefix", "Gql"] = .error .usage ∧
    parseArgs ["-s", "a", "-s", "b"] = .error .usage ∧ parseArgs ["a", "b"] = .error .usage ∧
    parseArgs ["--num-threads", "-1"] = .error .usage ∧ parseArgs ["--num-threads", "four"] = .error .usage ∧
    parseArgs ["--no-color=yes"] = .error .usage ∧ parseArgs ["--schema"] = .error .usage ∧
    parseArgs ["--schema-path="] = .error .usage ∧ parseArgs ["--schema-path", "--help"] = .error .usage ∧
    parseArgs ["src", "--help", "--what"] = .error .help ∧ parseArgs ["--what", "--help"] = .error .usage ∧
    parseArgs ["-V"] = .error .version ∧
    parseArgs ["--", "--help"] = .ok { rootDir := some ⟨false, ["--help"]⟩ } := by decide +kernel

/-- Settings and their words. -/
theorem C93_demo : CommandLine [.schemaPath (Path.ofString "-odd.json"), .noColor, .rootDir (Path.ofString "src")]
    ["-s=-odd.json", "--no-color", "src"] ∧
    Once [.schemaPath (Path.ofString "-odd.json"), .noColor, .rootDir (Path.ofString "src")] ∧
    PrefixAllowed [.schemaPath (Path.ofString "-odd.json"), .noColor, .rootDir (Path.ofString "src")] := by
  refine ⟨.plain (.cons (ws := ["-s=-odd.json"]) (.shortEquals (w := "-odd.json") (.schemaPath (by decide)) .schemaPath)
    (.cons (ws := ["--no-color"]) (.switch .noColor) (.cons (ws := ["src"]) (.directory (by decide) ?_) .nil))), ?_, ?_⟩
  · rintro ⟨c, cs, h⟩
    simp at h
  · simp [Once, SameOption]
  · rintro ⟨s, h⟩
    simp at h

end Qlc
