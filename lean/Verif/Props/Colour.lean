import Verif.Spec.Colour
import Verif.Props.Args
/-
C135: colours change nothing but colours.
-/
set_option autoImplicit false

namespace Qlc
open Spec

/-! ### Coloured texts -/

theorem coloured_refl : ∀ a : List Char, Coloured a a
  | [] => .nil
  | c :: a => .char c (coloured_refl a)

theorem coloured_append {a b a' b' : List Char} (h : Coloured a b) (h' : Coloured a' b') :
    Coloured (a ++ a') (b ++ b') := by
  induction h with
  | nil => exact h'
  | char c _ ih => exact .char c ih
  | style he _ ih => rw [List.append_assoc]; exact .style he ih

theorem text_refl (s : String) : ColouredText s s := coloured_refl _

theorem text_append {a b a' b' : String} (h : ColouredText a b) (h' : ColouredText a' b') :
    ColouredText (a ++ a') (b ++ b') := by
  unfold ColouredText
  rw [String.toList_append, String.toList_append]
  exact coloured_append h h'

theorem style_cons {e : List Char} (he : StyleSequence e) : ∃ cs, e = escChar :: cs := by
  obtain ⟨ps, rfl, _⟩ := he
  exact ⟨_, rfl⟩

/-- The sequences end where their first `m` is. -/
theorem style_same {e e' b b' : List Char} (he : StyleSequence e) (he' : StyleSequence e') (h : e ++ b = e' ++ b') :
    b = b' := by
  obtain ⟨ps, rfl, hp⟩ := he
  obtain ⟨ps', rfl, hp'⟩ := he'
  have h : ps ++ 'm' :: b = ps' ++ 'm' :: b' := by simpa using h
  clear * - hp hp' h
  induction ps generalizing ps' with
  | nil =>
    cases ps' with
    | nil => simpa using h
    | cons c ps' =>
      have := hp' c List.mem_cons_self
      have e : 'm' = c := by simpa using congrArg List.head? h
      rw [← e] at this
      exact absurd this (by decide)
  | cons c ps ih =>
    cases ps' with
    | nil =>
      have := hp c List.mem_cons_self
      have e : c = 'm' := by simpa using congrArg List.head? h
      rw [e] at this
      exact absurd this (by decide)
    | cons c' ps' =>
      refine ih (fun c h => hp c (List.mem_cons_of_mem _ h)) ps' (fun c h => hp' c (List.mem_cons_of_mem _ h)) ?_
      simpa using (List.cons.inj h).2

/-- **C135.** What is shown is the text without colours: a coloured text comes from one text without escape characters at
most. -/
theorem C135_one_text {a a' b : List Char} (h : Coloured a b) (h' : Coloured a' b) (ha : escChar ∉ a)
    (ha' : escChar ∉ a') : a = a' := by
  induction h generalizing a' with
  | nil =>
    generalize hb : [] = b' at h'
    cases h' with
    | nil => rfl
    | char c' h' => cases hb
    | style he _ => obtain ⟨_, rfl⟩ := style_cons he; cases hb
  | char c _ ih =>
    generalize hb : c :: _ = b' at h'
    cases h' with
    | nil => cases hb
    | char c' h' =>
      cases hb
      rw [ih h' (fun h => ha (List.mem_cons_of_mem _ h)) (fun h => ha' (List.mem_cons_of_mem _ h))]
    | style he _ =>
      obtain ⟨_, rfl⟩ := style_cons he
      cases hb
      exact absurd List.mem_cons_self ha
  | @style a₁ b₁ e₁ he _ ih =>
    generalize hb : e₁ ++ b₁ = b' at h'
    cases h' with
    | nil => obtain ⟨_, rfl⟩ := style_cons he; cases hb
    | char c' h' =>
      obtain ⟨_, rfl⟩ := style_cons he
      cases hb
      exact absurd List.mem_cons_self ha'
    | style he' h' =>
      have := style_same he he' hb
      subst this
      exact ih h' ha ha'

/-! ### Messages -/

section
variable {p : Paint}

theorem paint_text (hp : Decorates p) (style s : String) : ColouredText (Paint.plain style s) (p style s) :=
  hp style s s (text_refl s)

theorem location_coloured (hp : Decorates p) (style : String) (l : Location) :
    ColouredText (l.lineEncoding .plain style) (l.lineEncoding p style) := by
  have hq := paint_text hp
  unfold Location.lineEncoding
  cases l.columnNumber <;> cases l.helpText <;> dsimp only <;>
    repeat first | with_reducible exact hq _ _ | with_reducible exact text_refl _ | with_reducible apply text_append

theorem source_coloured (hp : Decorates p) (style : String) (s : Source) :
    ColouredText (s.render .plain style) (s.render p style) := by
  have hq := paint_text hp
  unfold Source.render
  cases s.location with
  | none =>
    dsimp only
    repeat first | with_reducible exact hq _ _ | with_reducible exact text_refl _ | with_reducible apply text_append
  | some l =>
    dsimp only
    repeat first | with_reducible exact location_coloured hp _ _ | with_reducible exact hq _ _ | with_reducible exact text_refl _ | with_reducible apply text_append

/-- **C135.** A message with colours is the message without, with style sequences put in. -/
theorem C135_message (hp : Decorates p) (m : Msg) : ColouredText (m.render .plain) (m.render p) := by
  have hq := paint_text hp
  unfold Msg.render
  have hb : ∀ a b s, ColouredText (Paint.plain a (Paint.plain b s)) (p a (p b s)) := fun a b s => hp a _ _ (hq b s)
  cases m.level <;> cases m.source <;> dsimp only <;>
    repeat first | with_reducible exact source_coloured hp _ _ | with_reducible exact hb _ _ _ | with_reducible exact hq _ _ | with_reducible exact text_refl _ | with_reducible apply text_append

/-- **C135.** The same for everything that is printed at the end; and the exit status is the same. -/
theorem C135_output (hp : Decorates p) (ms : List Msg) :
    (printExitInfo p ms).code = (printExitInfo .plain ms).code ∧
    List.Forall₂ ColouredText (printExitInfo .plain ms).printed (printExitInfo p ms).printed := by
  refine ⟨rfl, ?_⟩
  have map : ∀ l : List Msg, List.Forall₂ ColouredText (l.map (fun m => m.render .plain ++ "\n\n"))
      (l.map (fun m => m.render p ++ "\n\n")) := by
    intro l
    induction l with
    | nil => exact .nil
    | cons m l ih => exact .cons (text_append (C135_message hp m) (text_refl _)) ih
  have one : ∀ m : Msg, List.Forall₂ ColouredText [m.render .plain ++ "\n"] [m.render p ++ "\n"] :=
    fun m => .cons (text_append (C135_message hp m) (text_refl _)) .nil
  have app : ∀ {a b a' b' : List String}, List.Forall₂ ColouredText a b → List.Forall₂ ColouredText a' b' →
      List.Forall₂ ColouredText (a ++ a') (b ++ b') := by
    intro a b a' b' h h'
    induction h with
    | nil => exact h'
    | cons h1 _ ih => exact .cons h1 ih
  unfold printExitInfo
  refine app (app (map ms) ?_) ?_
  · split
    · exact one _
    · exact .nil
  · split
    · exact one _
    · exact .nil

end

/-! ### The program -/

section
variable {ω : Path → Hash} {ω' : Hash} {fuel : Nat} {ext : Ext} {colours : Paint} {cpus : Nat}
  {readConfig : Path → ConfigRead} {readSchema : Path → SchemaRead} {tree : Path → Entry} {w : World}

/-- What the program does does not depend on the option. -/
theorem runs_coloured {p : Paint} (hp : Decorates p) {a a' : CliArgs} (e : { a with noColor := true } = { a' with noColor := true })
    {f : Finished} (h : Runs ω ω' fuel ext p cpus readConfig readSchema tree w a f) :
    ∃ f', Runs ω ω' fuel ext .plain cpus readConfig readSchema tree w a' f' ∧ SameButColour f' f := by
  have hcfg : RuntimeConfig.fromCli cpus readConfig a' = RuntimeConfig.fromCli cpus readConfig a := by
    have h1 : RuntimeConfig.fromCli cpus readConfig a = RuntimeConfig.fromCli cpus readConfig { a with noColor := true } := rfl
    have h2 : RuntimeConfig.fromCli cpus readConfig a' = RuntimeConfig.fromCli cpus readConfig { a' with noColor := true } := rfl
    rw [h1, h2, e]
  cases h with
  | badConfig m h => exact ⟨_, .badConfig m (hcfg.trans h), ⟨rfl, (C135_output hp _).1, (C135_output hp _).2⟩⟩
  | badSchema r ms h hs => exact ⟨_, .badSchema r ms (hcfg.trans h) hs, ⟨rfl, (C135_output hp _).1, (C135_output hp _).2⟩⟩
  | finished r schema sched ms w' s h hs hrun hfin hend =>
    exact ⟨_, .finished r schema sched ms w' s (hcfg.trans h) hs hrun hfin hend,
      ⟨rfl, (C135_output hp _).1, (C135_output hp _).2⟩⟩

theorem runs_plain {p : Paint} (hp : Decorates p) {a a' : CliArgs} (e : { a with noColor := true } = { a' with noColor := true })
    {f : Finished} (h : Runs ω ω' fuel ext .plain cpus readConfig readSchema tree w a' f) :
    ∃ f', Runs ω ω' fuel ext p cpus readConfig readSchema tree w a f' ∧ SameButColour f f' := by
  have hcfg : RuntimeConfig.fromCli cpus readConfig a = RuntimeConfig.fromCli cpus readConfig a' := by
    have h1 : RuntimeConfig.fromCli cpus readConfig a = RuntimeConfig.fromCli cpus readConfig { a with noColor := true } := rfl
    have h2 : RuntimeConfig.fromCli cpus readConfig a' = RuntimeConfig.fromCli cpus readConfig { a' with noColor := true } := rfl
    rw [h1, h2, e]
  cases h with
  | badConfig m h => exact ⟨_, .badConfig m (hcfg.trans h), ⟨rfl, (C135_output hp _).1, (C135_output hp _).2⟩⟩
  | badSchema r ms h hs => exact ⟨_, .badSchema r ms (hcfg.trans h) hs, ⟨rfl, (C135_output hp _).1, (C135_output hp _).2⟩⟩
  | finished r schema sched ms w' s h hs hrun hfin hend =>
    exact ⟨_, .finished r schema sched ms w' s (hcfg.trans h) hs hrun hfin hend,
      ⟨rfl, (C135_output hp _).1, (C135_output hp _).2⟩⟩

theorem words_no_color {ss : List Setting} {words : List String} (h : CommandLine ss words) :
    CommandLine (.noColor :: ss) ("--no-color" :: words) := by
  have key : ∀ {ss ws}, Words ss ws → Words (.noColor :: ss) ("--no-color" :: ws) :=
    fun h => .cons (ws := ["--no-color"]) (.switch .noColor) h
  cases h with
  | plain h => exact .plain (key h)
  | dashes h => exact .dashes (key h)
  | directory h hw => exact .directory (key h) hw

theorem means_no_color {ss : List Setting} {a : CliArgs} (h : Means ss a) :
    Means (.noColor :: ss) { a with noColor := true } where
  rootDir := fun p => by simpa using h.rootDir p
  configFile := fun p => by simpa using h.configFile p
  schemaPath := fun p => by simpa using h.schemaPath p
  useCustomScalars := by simpa using h.useCustomScalars
  customScalarPrefix := fun p => by simpa using h.customScalarPrefix p
  rootDirImportPrefix := fun p => by simpa using h.rootDirImportPrefix p
  globalTypesModuleName := fun p => by simpa using h.globalTypesModuleName p
  typedGraphqlDocumentnodeModuleName := fun p => by simpa using h.typedGraphqlDocumentnodeModuleName p
  disableReadonlyTypes := by simpa using h.disableReadonlyTypes
  showDeprecationWarnings := by simpa using h.showDeprecationWarnings
  numThreads := fun p => by simpa using h.numThreads p
  noColor := by simp

/-- **C135.** Typing `--no-color` before the other words changes the colours and nothing else: for every way in which the
program can end with the words alone there is one in which it ends with the option, with the same files, the same exit
status and the same texts but for the colours; and the other way round. -/
theorem C135_no_color (hp : Decorates colours) {ss : List Setting} {words : List String} {a : CliArgs}
    (hline : CommandLine ss words) (honce : Once ss) (hprefix : PrefixAllowed ss) (hmeans : Means ss a)
    (hno : .noColor ∉ ss) :
    (∀ i, Invokes ω ω' fuel ext colours cpus readConfig readSchema tree w words i →
      ∃ f f', i = .ran f ∧ SameButColour f' f ∧
        Invokes ω ω' fuel ext colours cpus readConfig readSchema tree w ("--no-color" :: words) (.ran f')) ∧
    (∀ i, Invokes ω ω' fuel ext colours cpus readConfig readSchema tree w ("--no-color" :: words) i →
      ∃ f f', i = .ran f' ∧ SameButColour f' f ∧
        Invokes ω ω' fuel ext colours cpus readConfig readSchema tree w words (.ran f)) := by
  have h1 : parseArgs words = .ok a := (line_parse hline a).2 ⟨honce, hprefix, hmeans⟩
  have h2 : parseArgs ("--no-color" :: words) = .ok { a with noColor := true } := by
    refine (line_parse (words_no_color hline) _).2 ⟨?_, ?_, means_no_color hmeans⟩
    · refine List.pairwise_cons.2 ⟨?_, honce⟩
      intro s hs
      cases s <;> simp_all [SameOption]
    · rintro ⟨s, hs⟩
      have := hprefix ⟨s, by simpa using hs⟩
      simpa using this
  have hnc : a.noColor = false := by
    cases h : a.noColor with
    | false => rfl
    | true => exact absurd (hmeans.noColor.1 h) hno
  constructor
  · intro i h
    cases h with
    | stopped e h => rw [h1] at h; cases h
    | ran a' f h hr =>
      obtain rfl : a = a' := Except.ok.inj (h1.symm.trans h)
      rw [hnc, if_neg (by decide)] at hr
      obtain ⟨f', hr', hsame⟩ := runs_coloured (p := colours) (a := a) (a' := { a with noColor := true }) hp rfl hr
      exact ⟨f, f', rfl, hsame, .ran _ f' h2 hr'⟩
  · intro i h
    cases h with
    | stopped e h => rw [h2] at h; cases h
    | ran a' f' h hr =>
      have ea := Except.ok.inj (h2.symm.trans h)
      subst ea
      rw [if_pos rfl] at hr
      obtain ⟨f, hr', hsame⟩ := runs_plain (p := colours) (a := a) (a' := { a with noColor := true }) hp rfl hr
      exact ⟨f, f', rfl, hsame, .ran _ f h1 (by rw [hnc, if_neg (by decide)]; exact hr')⟩

end

/-! ### An example -/

/-- The sequences that the usual terminals understand. -/
def Demo.ansi : Paint := fun style s =>
  String.ofList (escChar :: '[' :: ((match style with
    | "bold" => ['1'] | "red" => ['3', '1'] | "green" => ['3', '2'] | "yellow" => ['3', '3'] | _ => ['3', '4']) ++ ['m'])) ++
  (s ++ String.ofList (escChar :: '[' :: (['0'] ++ ['m'])))

theorem ansi_decorates : Decorates Demo.ansi := by
  intro style s t h
  have key : ∀ ps : List Char, (∀ c ∈ ps, c ∈ "0123456789;".toList) → StyleSequence (escChar :: '[' :: (ps ++ ['m'])) :=
    fun ps h => ⟨ps, rfl, h⟩
  unfold ColouredText Demo.ansi
  rw [String.toList_append, String.toList_append, String.toList_ofList, String.toList_ofList]
  refine .style (key _ ?_) ?_
  · split <;> decide
  · have := coloured_append h (.style (key ['0'] (by decide)) .nil : Coloured [] _)
    simpa using this

/-- Neither does the program without colours print escape characters of its own, nor with colours anything else. -/
theorem C135_demo : Decorates Demo.ansi ∧ Decorates .plain ∧
    (printExitInfo Demo.ansi [.simpleCompileWarning "w"]).printed ≠ (printExitInfo .plain [.simpleCompileWarning "w"]).printed ∧
    (printExitInfo .plain [.simpleCompileWarning "w"]).printed = ["warning: w\n\n", "warning: 1 warning emitted\n"] ∧
    (printExitInfo Demo.ansi [.simpleCompileWarning "w"]).code = 0 :=
  ⟨ansi_decorates, fun _ _ _ h => h, by decide +kernel, by decide +kernel, by decide +kernel⟩

/-- The words `/r` meet the conditions of `C135_no_color`. -/
example : ∃ ss a, CommandLine ss ["/r"] ∧ Once ss ∧ PrefixAllowed ss ∧ Means ss a ∧ .noColor ∉ ss := by
  have hline : CommandLine [.rootDir (Path.ofString "/r")] ["/r"] := by
    refine .plain (.cons (ws := ["/r"]) (.directory (by decide) ?_) .nil)
    rintro ⟨c, cs, h⟩
    simp at h
  obtain ⟨h1, h2, h3⟩ := (line_parse hline { rootDir := some ⟨true, ["r"]⟩ }).1 rfl
  exact ⟨_, _, hline, h1, h2, h3, by simp⟩

end Qlc
