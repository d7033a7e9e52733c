import Verif.Lemmas.JsonValue
import Verif.Props.Startup
import Verif.Props.Npm
/-
C125 and C126: the texts of the schema file and of the configuration file.
-/
set_option autoImplicit false

namespace Qlc
open Spec

/-! ### C125 -/

/-- **C125.** A text is read as a tree exactly if it is a JSON document for the tree. -/
theorem C125_reads_iff (cs : List Char) (j : Json) : parseJson cs = some j ↔ DocumentText j cs := by
  unfold parseJson DocumentText
  constructor
  · intro h
    split at h
    · simp at h
    · rename_i j' r hv
      split at h
      · rename_i hr
        cases h
        obtain ⟨w, t, hw, e, ht⟩ := (parse_sound _).1 _ _ _ _ hv
        exact ⟨w, t, r, hw, (skipSpace_nil_iff r).1 hr, by rw [e, List.append_assoc], ht⟩
      · simp at h
  · rintro ⟨w, t, w', hw, hw', rfl, ht⟩
    have h := reads_back ht (2 * (w ++ t ++ w').length + 2) w w'
      (by simp only [List.length_append]; omega) hw ?_
    · rw [List.append_assoc] at h ⊢
      rw [h]
      simp only
      rw [if_pos ((skipSpace_nil_iff w').2 hw')]
    · intro _ c r e
      rcases hw' c (by rw [e]; exact List.mem_cons_self ..) with rfl | rfl | rfl | rfl <;> decide

/-- **C125.** A text is a document for one tree at most. -/
theorem C125_one_tree {cs : List Char} {j j' : Json} (h : DocumentText j cs) (h' : DocumentText j' cs) : j = j' := by
  rw [← C125_reads_iff] at h h'
  rw [h] at h'
  exact Option.some.inj h'

theorem utf8_eq (cs : List Char) : (utf8Bytes cs).toByteArray = cs.utf8Encode := by
  rw [List.utf8Encode]
  rfl

theorem toByteArray_inj {a b : List UInt8} (h : a.toByteArray = b.toByteArray) : a = b := by
  have := congrArg ByteArray.data h
  simpa using this

theorem fromUtf8_iff (bs : List UInt8) (s : String) :
    String.fromUTF8? bs.toByteArray = some s ↔ bs = utf8Bytes s.toList := by
  unfold String.fromUTF8?
  constructor
  · intro h
    split at h
    · rename_i hv
      simp only [Option.some.injEq] at h
      apply toByteArray_inj
      rw [utf8_eq, String.utf8Encode_toList, ← h]
      rfl
    · simp at h
  · rintro rfl
    have e : (utf8Bytes s.toList).toByteArray = s.toByteArray := by rw [utf8_eq, String.utf8Encode_toList]
    split
    · rename_i hv
      congr 1
      apply String.toByteArray_inj.1
      simp only [String.fromUTF8, e]
    · rename_i hn
      rw [e] at hn
      exact absurd s.isValidUTF8 (by simpa using hn)

/-- **C125.** A file is read as a tree exactly if its bytes are a JSON document for it, in UTF-8. -/
theorem C125_file_iff (say : List UInt8 → String) (bs : List UInt8) (j : Json) (e : String) :
    JsonFile.ofBytes say bs = .tree j e ↔ HoldsDocument bs j ∧ e = say bs := by
  unfold JsonFile.ofBytes HoldsDocument
  constructor
  · intro h
    split at h
    · simp at h
    · rename_i s hs
      split at h
      · simp at h
      · rename_i j' hj
        simp only [JsonFile.tree.injEq] at h
        obtain ⟨rfl, rfl⟩ := h
        exact ⟨⟨s.toList, (fromUtf8_iff _ _).1 hs, (C125_reads_iff _ _).1 hj⟩, rfl⟩
  · rintro ⟨⟨cs, rfl, hd⟩, rfl⟩
    have hs : String.fromUTF8? (utf8Bytes cs).toByteArray = some (String.ofList cs) :=
      (fromUtf8_iff _ _).2 (by rw [String.toList_ofList])
    rw [hs]
    simp only
    rw [String.toList_ofList, (C125_reads_iff _ _).2 hd]

/-- **C125.** Any other file is malformed. -/
theorem C125_not_json (say : List UInt8 → String) (bs : List UInt8) (h : ¬ ∃ j, HoldsDocument bs j) :
    JsonFile.ofBytes say bs = .syntaxError (say bs) := by
  cases e : JsonFile.ofBytes say bs with
  | tree j x => exact absurd ⟨j, ((C125_file_iff say bs j x).1 e).1⟩ h
  | notFound x =>
    unfold JsonFile.ofBytes at e
    split at e
    · simp at e
    · split at e <;> simp at e
  | ioError x =>
    unfold JsonFile.ofBytes at e
    split at e
    · simp at e
    · split at e <;> simp at e
  | syntaxError x =>
    unfold JsonFile.ofBytes at e
    split at e
    · simpa using e.symm
    · split at e
      · simpa using e.symm
      · simp at e

theorem respelled_schema {say : List UInt8 → String} {a b : FileRead}
    (h : JsonRespelled introspectionKeys ReadsIntrospection a b) :
    (a.asJson say).asSchema = (b.asJson say).asSchema := by
  cases h with
  | refl => rfl
  | @text bs bs' j j' x h h' hs hx =>
    have h1 := (C125_file_iff say bs j (say bs)).2 ⟨h, rfl⟩
    have h2 := (C125_file_iff say bs' j' (say bs')).2 ⟨h', rfl⟩
    have hd := (C62_introspection_read_by_key j x).2 hx
    have hd' := hd
    rw [C62_other_members_do_not_matter j j' hs] at hd'
    simp only [FileRead.asJson, h1, h2, JsonFile.asSchema, hd, hd']

theorem respelled_config {say : List UInt8 → String} {a b : FileRead} (h : JsonRespelled configKeys ReadsConfig a b) :
    (a.asJson say).asConfig = (b.asJson say).asConfig := by
  cases h with
  | refl => rfl
  | @text bs bs' j j' x h h' hs hx =>
    have h1 := (C125_file_iff say bs j (say bs)).2 ⟨h, rfl⟩
    have h2 := (C125_file_iff say bs' j' (say bs')).2 ⟨h', rfl⟩
    have hd := (C63_config_read_by_key j x).2 hx
    have hd' := hd
    rw [C63_other_members_do_not_matter j j' hs] at hd'
    simp only [FileRead.asJson, h1, h2, JsonFile.asConfig, hd, hd']

section Program
variable {ω : Path → Hash} {ω' : Hash} {fuel : Nat} {ext : Ext} {paint : Paint} {cpus : Nat}
  {configs schemas configs' schemas' : Path → FileRead} {tree : Path → Entry} {w : World} {args : CliArgs}
  {f : Finished} {say : List UInt8 → String}

/-- **C125.** How the schema file and the configuration file are spelled does not matter: the program can do the
same things. -/
theorem C125_spelling_does_not_matter (hc : ∀ p, JsonRespelled configKeys ReadsConfig (configs p) (configs' p))
    (hs : ∀ p, JsonRespelled introspectionKeys ReadsIntrospection (schemas p) (schemas' p)) :
    Runs ω ω' fuel ext paint cpus (fun p => ((configs p).asJson say).asConfig)
        (fun p => ((schemas p).asJson say).asSchema) tree w args f ↔
      Runs ω ω' fuel ext paint cpus (fun p => ((configs' p).asJson say).asConfig)
        (fun p => ((schemas' p).asJson say).asSchema) tree w args f := by
  rw [funext fun p => respelled_config (say := say) (hc p), funext fun p => respelled_schema (say := say) (hs p)]

/-! ### C126 -/

theorem compound_head {n : Nat} {j : Json} {t : List Char} (h : Spells n (.value j) t) (hj : IsCompound j) :
    ∃ c r, t = c :: r ∧ (c = '[' ∨ c = '{') := by
  cases h with
  | number h => cases h <;> exact absurd hj (by simp [IsCompound])
  | null => exact absurd hj (by simp [IsCompound])
  | true => exact absurd hj (by simp [IsCompound])
  | false => exact absurd hj (by simp [IsCompound])
  | str _ => exact absurd hj (by simp [IsCompound])
  | noItems _ => exact ⟨_, _, rfl, .inl rfl⟩
  | arr _ => exact ⟨_, _, rfl, .inl rfl⟩
  | noMembers _ => exact ⟨_, _, rfl, .inr rfl⟩
  | obj _ => exact ⟨_, _, rfl, .inr rfl⟩

/-- **C126.** A beginning of a document for an array or an object is no document, unless only white space is
missing. -/
theorem C126_cut_short {cs cs' x : List Char} {j j' : Json} (h : DocumentText j cs) (hj : IsCompound j)
    (hcut : cs = cs' ++ x) (h' : DocumentText j' cs') : j' = j ∧ JsonBlank x := by
  obtain ⟨w, t, v, hw, hv, e, ht⟩ := h
  obtain ⟨w', t', v', hw', hv', e', ht'⟩ := h'
  have r1 := reads_back ht (2 * (t.length + t'.length)) w v (by omega) hw
    (fun hn => by cases j <;> first | exact hn.elim | exact hj.elim)
  obtain ⟨c, r, et, hc⟩ := compound_head ht hj
  obtain ⟨c', r', et', ho⟩ := spells_head ht'
  have hsp : isJsonSpace c = false := by rcases hc with rfl | rfl <;> decide
  have hfirst : c' = c := by
    have s1 : skipSpace cs = c :: (r ++ v) := by
      rw [e, et, List.append_assoc, List.cons_append]; exact skip_to hw hsp _
    have s2 : skipSpace cs = c' :: (r' ++ (v' ++ x)) := by
      rw [hcut, e', et']
      simp only [List.append_assoc, List.cons_append]
      exact skip_to hw' ho.1 _
    rw [s1] at s2
    injection s2 with s2 _
    exact s2.symm
  have hnum : ¬ j'.IsNumber := by
    intro hn
    cases ht' with
    | number h =>
      obtain ⟨d, r'', e'', _, _, _, _, _, h5, h6⟩ := number_head h
      rw [e''] at et'
      injection et' with et' _
      subst et'
      rw [hfirst] at h5 h6
      rcases hc with rfl | rfl
      · exact h5 rfl
      · exact h6 rfl
    | null => exact hn
    | true => exact hn
    | false => exact hn
    | str _ => exact hn
    | noItems _ => exact hn
    | arr _ => exact hn
    | noMembers _ => exact hn
    | obj _ => exact hn
  have r2 := reads_back ht' (2 * (t.length + t'.length)) w' (v' ++ x) (by omega) hw' (fun hn => absurd hn hnum)
  have ecs : w ++ (t ++ v) = w' ++ (t' ++ (v' ++ x)) := by
    rw [← List.append_assoc, ← e, hcut, e']
    simp only [List.append_assoc]
  rw [ecs, r2] at r1
  simp only [Option.some.injEq, Prod.mk.injEq] at r1
  refine ⟨r1.1, fun y hy => hv y ?_⟩
  rw [← r1.2]
  exact List.mem_append_right _ hy

theorem utf8_append (a b : List Char) : utf8Bytes (a ++ b) = utf8Bytes a ++ utf8Bytes b := by
  unfold utf8Bytes
  rw [List.flatMap_append]

/-- **C126.** A beginning of a file that holds a document for an array or an object holds no document, unless only
white space is missing. -/
theorem C126_file_cut_short {bs bs' : List UInt8} {j j' : Json} (h : HoldsDocument bs j) (hj : IsCompound j)
    (hcut : bs' <+: bs) (h' : HoldsDocument bs' j') : j' = j ∧ SameButBlanks bs bs' := by
  obtain ⟨cs, rfl, hd⟩ := h
  obtain ⟨cs', rfl, hd'⟩ := h'
  obtain ⟨y, hy⟩ := hcut
  have hp : cs' <+: cs := by
    refine List.isPrefix_of_utf8Encode_append_eq_utf8Encode y.toByteArray ?_
    rw [← utf8_eq, ← utf8_eq, ← hy, List.toByteArray_append]
  obtain ⟨x, rfl⟩ := hp
  obtain ⟨h1, h2⟩ := C126_cut_short hd hj rfl hd'
  exact ⟨h1, x, h2, utf8_append cs' x⟩

theorem compound_of_reads {j : Json} {s : JSchema} (h : ReadsIntrospection j s) : IsCompound j := by
  rw [← C62_introspection_read_by_key] at h
  cases j with
  | arr _ => trivial
  | obj _ => trivial
  | null => simp [decodeIntrospection, Json.asStruct] at h
  | bool _ => simp [decodeIntrospection, Json.asStruct] at h
  | nat _ => simp [decodeIntrospection, Json.asStruct] at h
  | num _ => simp [decodeIntrospection, Json.asStruct] at h
  | str _ => simp [decodeIntrospection, Json.asStruct] at h

theorem compound_of_config {j : Json} {c : ConfigFile} (h : ReadsConfig j c) : IsCompound j := by
  rw [← C63_config_read_by_key] at h
  cases j with
  | arr _ => trivial
  | obj _ => trivial
  | null => simp [decodeConfig, Json.asStruct] at h
  | bool _ => simp [decodeConfig, Json.asStruct] at h
  | nat _ => simp [decodeConfig, Json.asStruct] at h
  | num _ => simp [decodeConfig, Json.asStruct] at h
  | str _ => simp [decodeConfig, Json.asStruct] at h

/-- **C126.** If a file holds a schema, and the schema file holds a beginning of it only, then every run of the
program reports the schema file, exits with status 1 and touches no file, unless only white space is missing. -/
theorem C126_schema_cut_short {bs bs' : List UInt8} {j : Json} {s : JSchema} (h : HoldsDocument bs j)
    (hr : ReadsIntrospection j s) (hcut : bs' <+: bs) (hmore : ¬ SameButBlanks bs bs') (r : RuntimeConfig)
    (hcfg : RuntimeConfig.fromCli cpus (fun p => ((configs p).asJson say).asConfig) args = .ok r)
    (hfile : schemas r.schemaPath = .bytes bs')
    (run : Runs ω ω' fuel ext paint cpus (fun p => ((configs p).asJson say).asConfig)
      (fun p => ((schemas p).asJson say).asSchema) tree w args f) :
    f.exit = ⟨[(⟨.compileError, none, "malformed schema: JSON parse error: " ++ say bs'⟩ : Msg).render paint ++ "\n\n",
      (Msg.simpleCompileError "failure due to 1 error").render paint ++ "\n"], 1⟩ ∧ f.world = w := by
  have hno : ¬ ∃ j', HoldsDocument bs' j' := fun ⟨j', h'⟩ =>
    hmore (C126_file_cut_short h (compound_of_reads hr) hcut h').2
  have hbad : ((schemas r.schemaPath).asJson say).asSchema = .serdeError (say bs') := by
    rw [hfile, FileRead.asJson, C125_not_json say bs' hno]
    rfl
  obtain ⟨text, hc, he, hw⟩ := C72_bad_schema_stops run r hcfg (by rw [hbad]; exact fun h => h)
  rw [hbad] at hc
  cases hc
  exact ⟨he, hw⟩

/-- **C126.** In the same way a configuration file that was cut short stops the program. -/
theorem C126_config_cut_short {bs bs' : List UInt8} {j : Json} {c : ConfigFile} (h : HoldsDocument bs j)
    (hr : ReadsConfig j c) (hcut : bs' <+: bs) (hmore : ¬ SameButBlanks bs bs')
    (hfile : configs (configPath args) = .bytes bs')
    (run : Runs ω ω' fuel ext paint cpus (fun p => ((configs p).asJson say).asConfig)
      (fun p => ((schemas p).asJson say).asSchema) tree w args f) :
    f.exit = ⟨[(⟨.programError, none, "error in config file `" ++ (configPath args).display ++ "`: " ++ say bs'⟩ :
      Msg).render paint ++ "\n\n", (Msg.simpleCompileError "failure due to 1 error").render paint ++ "\n"], 1⟩ ∧
    f.world = w := by
  have hno : ¬ ∃ j', HoldsDocument bs' j' := fun ⟨j', h'⟩ =>
    hmore (C126_file_cut_short h (compound_of_config hr) hcut h').2
  refine C72_config_file_complaint (configs := fun p => (configs p).asJson say)
    (schemas := fun p => (schemas p).asJson say) run .programError _ ?_
  simp only [hfile, FileRead.asJson, C125_not_json say bs' hno]
  exact .notJson _

/-- **C126.** A download that was broken off, although it may end with status 0 (C86), does not lead to wrong types:
if the file holds a beginning of the server's answer only, the next run of the program exits with status 1 and
touches no file. -/
theorem C126_broken_download {endpoint : Option String} {urlOk : Bool} {old : Option Bytes} {fs : List FetchEvent}
    {body : Bytes} {j : Json} {s : JSchema} (h : HoldsDocument body j) (hr : ReadsIntrospection j s)
    (hrec : (Fetch.run endpoint urlOk old fs).received <+: body)
    (h0 : (Fetch.run endpoint urlOk old fs).pc = .exited 0)
    (hmore : ¬ SameButBlanks body (Fetch.run endpoint urlOk old fs).received) (r : RuntimeConfig)
    (hcfg : RuntimeConfig.fromCli cpus (fun p => ((configs p).asJson say).asConfig) args = .ok r)
    (hfile : ∀ bs, (Fetch.run endpoint urlOk old fs).file = some bs → schemas r.schemaPath = .bytes bs)
    (run : Runs ω ω' fuel ext paint cpus (fun p => ((configs p).asJson say).asConfig)
      (fun p => ((schemas p).asJson say).asSchema) tree w args f) :
    f.exit.code = 1 ∧ f.world = w := by
  obtain ⟨he, hw⟩ := C126_schema_cut_short h hr hrec hmore r hcfg (hfile _ (C86_success h0).2.1) run
  exact ⟨by rw [he], hw⟩

end Program

/-! ### Concrete cases -/

mutual
/-- Comparing trees. -/
def Json.same : Json → Json → Bool
  | .null, .null => true
  | .bool a, .bool b => a == b
  | .nat a, .nat b => a == b
  | .num a, .num b => a == b
  | .str a, .str b => a == b
  | .arr a, .arr b => Json.sameItems a b
  | .obj a, .obj b => Json.sameMembers a b
  | _, _ => false
/-- Comparing items. -/
def Json.sameItems : List Json → List Json → Bool
  | [], [] => true
  | a :: as, b :: bs => Json.same a b && Json.sameItems as bs
  | _, _ => false
/-- Comparing members. -/
def Json.sameMembers : List (String × Json) → List (String × Json) → Bool
  | [], [] => true
  | (k, a) :: as, (l, b) :: bs => k == l && Json.same a b && Json.sameMembers as bs
  | _, _ => false
end

mutual
theorem same_sound : ∀ (a b : Json), Json.same a b = true → a = b
  | .null, b, h => by cases b <;> simp_all [Json.same]
  | .bool a, b, h => by cases b <;> simp_all [Json.same]
  | .nat a, b, h => by cases b <;> simp_all [Json.same]
  | .num a, b, h => by cases b <;> simp_all [Json.same]
  | .str a, b, h => by cases b <;> simp_all [Json.same]
  | .arr a, b, h => by
    cases b <;> simp only [Json.same, Bool.false_eq_true] at h
    rw [sameItems_sound a _ h]
  | .obj a, b, h => by
    cases b <;> simp only [Json.same, Bool.false_eq_true] at h
    rw [sameMembers_sound a _ h]
theorem sameItems_sound : ∀ (a b : List Json), Json.sameItems a b = true → a = b
  | [], b, h => by cases b <;> simp_all [Json.sameItems]
  | a :: as, b, h => by
    cases b with
    | nil => simp [Json.sameItems] at h
    | cons b bs =>
      simp only [Json.sameItems, Bool.and_eq_true] at h
      rw [same_sound a b h.1, sameItems_sound as bs h.2]
theorem sameMembers_sound : ∀ (a b : List (String × Json)), Json.sameMembers a b = true → a = b
  | [], b, h => by cases b <;> simp_all [Json.sameMembers]
  | (k, a) :: as, b, h => by
    cases b with
    | nil => simp [Json.sameMembers] at h
    | cons b bs =>
      obtain ⟨l, b⟩ := b
      simp only [Json.sameMembers, Bool.and_eq_true, beq_iff_eq] at h
      rw [h.1.1, same_sound a b h.1.2, sameMembers_sound as bs h.2]
end

/-- Reading a text gives a tree. -/
def readsAs (cs : List Char) (j : Json) : Bool :=
  match parseJson cs with
  | some j' => j'.same j
  | none => false

theorem text_of_check {cs : List Char} {j : Json} (h : readsAs cs j = true) : DocumentText j cs := by
  unfold readsAs at h
  split at h
  · rename_i j' hj
    rw [← same_sound _ _ h]
    exact (C125_reads_iff _ _).1 hj
  · cases h

namespace Demo

/-- A configuration file. -/
def configText : List Char := "{\"numThreads\": 4, \"schemaFile\": \"s.json\"}\n".toList

/-- The same settings, spelled in another way. -/
def configText' : List Char :=
  "\r\n{ \"schemaFile\":\"\\u0073.\\u006aso\\u006E\",\n\t\"numThreads\" :4 , \"extra\":[ -1.5e+3,null, {} ]}".toList

def configTree : Json := .obj [("numThreads", .nat 4), ("schemaFile", .str "s.json")]

def configTree' : Json := .obj [("schemaFile", .str "s.json"), ("numThreads", .nat 4),
  ("extra", .arr [.num "-1.5e+3", .null, .obj []])]

/-- A small schema file. -/
def schemaText : List Char :=
  "{\"data\":{\"__schema\":{\"types\":[{\"kind\":\"SCALAR\",\"name\":\"Int\"}]}}}".toList

def schemaTree : Json :=
  .obj [("data", .obj [("__schema", .obj [("types", .arr [.obj [("kind", .str "SCALAR"), ("name", .str "Int")]])])])]

end Demo

theorem config_text : DocumentText Demo.configTree Demo.configText := text_of_check (by decide +kernel)

theorem config_text' : DocumentText Demo.configTree' Demo.configText' := text_of_check (by decide +kernel)

theorem schema_text : DocumentText Demo.schemaTree Demo.schemaText := text_of_check (by decide +kernel)

/-- The configuration files are spelled differently and mean the same. -/
theorem C125_demo : JsonRespelled configKeys ReadsConfig (.bytes (utf8Bytes Demo.configText))
    (.bytes (utf8Bytes Demo.configText')) ∧ utf8Bytes Demo.configText ≠ utf8Bytes Demo.configText' := by
  refine ⟨.text ⟨_, rfl, config_text⟩ ⟨_, rfl, config_text'⟩ ?_ ((C63_config_read_by_key _ _).1 rfl),
    by decide +kernel⟩
  refine .obj _ _ fun k hk => ?_
  simp only [configKeys, List.mem_cons, List.not_mem_nil, or_false] at hk
  rcases hk with rfl | rfl | rfl | rfl | rfl | rfl | rfl | rfl | rfl <;>
    exact List.forall₂_same.2 fun _ _ => .refl _

/-- Texts that are no JSON documents: nothing, a comma too many, a zero in front, a control character, a lone
surrogate, a word, more after the end, single quotes, and nesting that is too deep. -/
theorem C125_rejected : ∀ t ∈ ["", "[1,]", "[01]", "\"a\nb\"", "\"\\ud800\"", "nul", "{} {}", "{'a':1}", "{\"a\":1,}"],
    ¬ ∃ j, DocumentText j t.toList := by
  have h : ∀ t ∈ ["", "[1,]", "[01]", "\"a\nb\"", "\"\\ud800\"", "nul", "{} {}", "{'a':1}", "{\"a\":1,}"],
      (parseJson t.toList).isNone = true := by decide +kernel
  rintro t ht ⟨j, hj⟩
  have := h t ht
  rw [(C125_reads_iff _ _).2 hj] at this
  cases this

/-- 127 levels can be read, 128 cannot. -/
theorem C125_levels :
    (∃ j, DocumentText j (List.replicate 127 '[' ++ List.replicate 127 ']')) ∧
    ¬ ∃ j, DocumentText j (List.replicate 128 '[' ++ List.replicate 128 ']') := by
  have h1 : (parseJson (List.replicate 127 '[' ++ List.replicate 127 ']')).isSome = true := by decide +kernel
  have h2 : (parseJson (List.replicate 128 '[' ++ List.replicate 128 ']')).isNone = true := by decide +kernel
  constructor
  · obtain ⟨j, hj⟩ := Option.isSome_iff_exists.1 h1
    exact ⟨j, (C125_reads_iff _ _).1 hj⟩
  · rintro ⟨j, hj⟩
    rw [(C125_reads_iff _ _).2 hj] at h2
    cases h2

/-- A beginning of the schema file. -/
def cutSchema : List UInt8 := (utf8Bytes Demo.schemaText).take 60

theorem cutSchema_more : ¬ SameButBlanks (utf8Bytes Demo.schemaText) cutSchema := by
  rintro ⟨v, hv, e⟩
  have hl : cutSchema.length = 60 := by decide +kernel
  have h : (utf8Bytes Demo.schemaText).drop 60 = utf8Bytes v := by
    rw [e, List.drop_append_of_le_length (by omega), List.drop_of_length_le (by omega), List.nil_append]
  have hh : ((utf8Bytes Demo.schemaText).drop 60).head? = some 93 := by decide +kernel
  rw [h] at hh
  cases v with
  | nil => cases hh
  | cons c v =>
    have hc : (utf8Bytes (c :: v)).head? = (String.utf8EncodeChar c).head? := by
      rcases hv c (List.mem_cons_self ..) with rfl | rfl | rfl | rfl <;> rfl
    rw [hc] at hh
    rcases hv c (List.mem_cons_self ..) with rfl | rfl | rfl | rfl <;> exact absurd hh (by decide +kernel)

/-- A schema file cut short, and a run that stops because of it. -/
theorem C126_demo (ω : Path → Hash) (ω' : Hash) (ext : Ext) (tree : Path → Entry) (w : World) :
    ∃ (s : JSchema) (r : RuntimeConfig) (f : Finished),
    HoldsDocument (utf8Bytes Demo.schemaText) Demo.schemaTree ∧ ReadsIntrospection Demo.schemaTree s ∧
    cutSchema <+: utf8Bytes Demo.schemaText ∧ ¬ SameButBlanks (utf8Bytes Demo.schemaText) cutSchema ∧
    RuntimeConfig.fromCli 4 (fun _ => ((FileRead.notFound "gone").asJson (fun _ => "EOF")).asConfig) {} = .ok r ∧
    Runs ω ω' 9 ext .plain 4 (fun _ => ((FileRead.notFound "gone").asJson (fun _ => "EOF")).asConfig)
      (fun _ => ((FileRead.bytes cutSchema).asJson (fun _ => "EOF")).asSchema) tree w {} f := by
  have hd : HoldsDocument (utf8Bytes Demo.schemaText) Demo.schemaTree := ⟨_, rfl, schema_text⟩
  have hr : ∃ s, decodeIntrospection Demo.schemaTree = some s :=
    Option.isSome_iff_exists.1 (by decide +kernel)
  obtain ⟨s, hs⟩ := hr
  have hs := (C62_introspection_read_by_key _ _).1 hs
  have hno : ¬ ∃ j', HoldsDocument cutSchema j' := fun ⟨j', h'⟩ =>
    cutSchema_more (C126_file_cut_short hd (compound_of_reads hs) (List.take_prefix _ _) h').2
  have hbad : ((FileRead.bytes cutSchema).asJson (fun _ => "EOF")).asSchema = .serdeError "EOF" := by
    rw [FileRead.asJson, C125_not_json _ _ hno]
    rfl
  rw [hbad]
  exact ⟨s, _, _, hd, hs, List.take_prefix _ _, cutSchema_more, rfl, .badSchema _ _ rfl rfl⟩

end Qlc
