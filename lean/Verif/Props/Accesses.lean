import Verif.Lemmas.Accesses
import Verif.Spec.Demo
/-
Property C105: which files compiling one document reads and writes, in which order, and how often.
-/
set_option autoImplicit false

namespace Qlc
open Spec

/-- C105: compiling a document that can be read and parsed reads the document, then, once for every
chain of import lines that starts in it, the file at the end of that chain, in the order of a walk that
follows the first line to the end before it turns to the second; then it writes at most one file, the
output of the document.  A file that many chains lead to is read as many times.  Nothing is assumed of the file
system but that this program alone uses it; the run must end (C36) and no import line be broken (C37). -/
theorem C105_one_read_per_chain (ω : Hash) (fuel : Nat) (ext : Ext) (cfg : CompileConfig)
    (schema : Schema) (w : World) (p : Path) (globals : List String) (messages : List Msg)
    (h : ((compileOps ω fuel ext cfg schema p).run w).1 = .done globals messages) :
    (∀ contents d, w.read p = .ok contents → parseGraphqlFile ext contents p = .ok d →
      ∃ cs out, AllChains w cfg p contents cs ∧ (out = [] ∨ out = [.wrote (outputPath p)]) ∧
        accesses w (compileOps ω fuel ext cfg schema p) =
          .read p :: (cs.map (fun e => .read e.2) ++ out)) ∧
    ((∀ contents d, w.read p = .ok contents → parseGraphqlFile ext contents p ≠ .ok d) →
      accesses w (compileOps ω fuel ext cfg schema p) = [.read p]) := by
  have key : accesses w (compileOps ω fuel ext cfg schema p) = Access.read p ::
      (match w.read p with
      | .error _ => []
      | .ok contents =>
        match parseGraphqlFile ext contents p with
        | .error _ => []
        | .ok d => (accesses w (compileOps ω fuel ext cfg schema p)).tail) := by
    unfold compileOps
    simp only [accesses, List.tail_cons]
    cases w.read p with
    | error e => rfl
    | ok c =>
      simp only
      cases parseGraphqlFile ext c p <;> rfl
  refine ⟨fun contents d hr hp => ?_, fun hno => ?_⟩
  · unfold compileOps at h ⊢
    simp only [Ops.run, accesses, hr, hp] at h ⊢
    rw [Ops.run_bind, addImportedOps_run] at h
    rw [accesses_bind, addImportedOps_run]
    cases hi : addImported w cfg fuel p contents ⟨[], []⟩ with
    | none => rw [hi] at h; simp [Ops.run] at h
    | some r =>
      cases r with
      | panic => rw [hi] at h; simp [Ops.run] at h
      | done st =>
        obtain ⟨cs, hcs, hacc⟩ := addImported_accesses w cfg fuel p contents _ st hi
        refine ⟨cs, _, hcs, ?_, by rw [hacc]⟩
        simp only
        cases Operation.compile ω fuel ⟨schema, cfg.showDeprecationWarnings,
            (parseForeignFragments ω ext p st.imports st.messages).1⟩ d with
        | none => exact .inl rfl
        | some r =>
          obtain ⟨r, ws⟩ := r
          cases r with
          | error es => exact .inl rfl
          | ok op =>
            simp only
            cases compileIr ω op cfg.toTsConfig schema with
            | error e => exact .inl rfl
            | ok c =>
              right
              simp only [accesses]
              cases (w.write (outputPath p) c.contents).1 <;> rfl
  · rw [key]
    cases hr : w.read p with
    | error e => rfl
    | ok c =>
      simp only
      cases hp : parseGraphqlFile ext c p with
      | error e => rfl
      | ok d => exact absurd hp (hno c d hr)

/-- C105: so a file is read exactly as many times as chains lead to it, not counting the document
itself. -/
theorem C105_times_read (ω : Hash) (fuel : Nat) (ext : Ext) (cfg : CompileConfig)
    (schema : Schema) (w : World) (p : Path) (globals : List String) (messages : List Msg)
    (h : ((compileOps ω fuel ext cfg schema p).run w).1 = .done globals messages)
    (contents : String) (d : Definition) (hr : w.read p = .ok contents)
    (hp : parseGraphqlFile ext contents p = .ok d) (q : Path) :
    ∃ chains : List (List Nat), chains.Nodup ∧ (∀ is, is ∈ chains ↔ Leads w cfg p contents is q) ∧
      (accesses w (compileOps ω fuel ext cfg schema p)).tail.count (.read q) = chains.length := by
  obtain ⟨cs, out, hcs, hout, hacc⟩ :=
    (C105_one_read_per_chain ω fuel ext cfg schema w p globals messages h).1 contents d hr hp
  refine ⟨(cs.filter (fun e => decide (e.2 = q))).map Prod.fst, ?_, ?_, ?_⟩
  · rw [List.Nodup, List.pairwise_map]
    refine (hcs.1.filter _).imp ?_
    intro a b hab he
    rw [he] at hab
    have irr : ∀ l : List Nat, ¬ List.Lex (· < ·) l l := by
      intro l
      induction l with
      | nil => intro h; cases h
      | cons a l ih =>
        intro h
        cases h with
        | cons h => exact ih h
        | rel h => exact Nat.lt_irrefl _ h
    exact irr _ hab
  · intro is
    rw [← hcs.2 is q]
    simp only [List.mem_map, List.mem_filter, decide_eq_true_eq]
    constructor
    · rintro ⟨⟨is', q'⟩, ⟨h1, rfl⟩, rfl⟩
      exact h1
    · intro h1
      exact ⟨(is, q), ⟨h1, rfl⟩, rfl⟩
  · rw [hacc, List.tail_cons, List.count_append, List.length_map]
    have h0 : out.count (.read q) = 0 := by
      rcases hout with rfl | rfl
      · rfl
      · rfl
    rw [h0, Nat.add_zero]
    clear hacc hcs h0
    induction cs with
    | nil => rfl
    | cons a cs ih =>
      rw [List.map_cons, List.count_cons, List.filter_cons, ih]
      by_cases ha : a.2 = q
      · simp [ha]
      · have : ¬ Access.read a.2 = Access.read q := fun e => ha (Access.read.inj e)
        simp [ha, this]

/-- The query of the demonstration project, with the import of the fragment written twice. -/
def Demo.twiceText : String :=
  "#import \"f.graphql\"\n#import \"m.graphql\"\n#import \"./f.graphql\"\nquery Q"

/-- The demonstration project with that query. -/
def Demo.twiceWorld : World :=
  { Demo.world with disk := fun id => if id = "/r/q.graphql" then .ok Demo.twiceText else Demo.world.disk id }

/-- Its parser. -/
def Demo.twiceExt : Ext :=
  ⟨fun s => if s = Demo.twiceText then
    Demo.ext.parse "#import \"f.graphql\"\n#import \"m.graphql\"\nquery Q" else Demo.ext.parse s, Demo.ext.dist⟩

/-- The hypotheses are met by a document that imports a fragment twice and a missing file; the fragment
is read twice and the output is written. -/
example : (∃ g m, ((compileOps .inOrder 5 Demo.twiceExt Demo.cfg Demo.schema Demo.qPath).run
      Demo.twiceWorld).1 = .done g m) ∧
    (∃ d, parseGraphqlFile Demo.twiceExt Demo.twiceText Demo.qPath = .ok d) ∧
    Demo.twiceWorld.read Demo.qPath = .ok Demo.twiceText ∧
    accesses Demo.twiceWorld (compileOps .inOrder 5 Demo.twiceExt Demo.cfg Demo.schema Demo.qPath) =
      [.read Demo.qPath, .read ⟨true, ["r", "f.graphql"]⟩, .read ⟨true, ["r", "m.graphql"]⟩,
        .read ⟨true, ["r", "f.graphql"]⟩, .wrote ⟨true, ["r", "q.graphql.d.ts"]⟩] := by
  refine ⟨?_, ?_, by rfl, by decide +kernel⟩
  · have h : (match ((compileOps .inOrder 5 Demo.twiceExt Demo.cfg Demo.schema Demo.qPath).run
        Demo.twiceWorld).1 with | .done _ _ => true | _ => false) = true := by decide +kernel
    generalize ((compileOps .inOrder 5 Demo.twiceExt Demo.cfg Demo.schema Demo.qPath).run
        Demo.twiceWorld).1 = r at h
    cases r with
    | done g m => exact ⟨g, m, rfl⟩
    | _ => cases h
  · have h : (match parseGraphqlFile Demo.twiceExt Demo.twiceText Demo.qPath with
        | .ok _ => true | _ => false) = true := by decide +kernel
    generalize parseGraphqlFile Demo.twiceExt Demo.twiceText Demo.qPath = r at h
    cases r with
    | ok d => exact ⟨d, rfl⟩
    | error e => cases h

/-! ### Exponentially many reads -/

/-- A document that imports two others one directory further down. -/
def twoImports : String :=
  "#import \"./a/g.graphql\"\n#import \"./a/h.graphql\"\nfragment F on T { x }"

/-- A document that imports nothing. -/
def noImports : String := "fragment F on T { x }"

/-- The file called `name`, `k` directories down. -/
def deepFile (k : Nat) (name : String) : Path := ⟨true, List.replicate k "a" ++ [name]⟩

/-- Files down to `n` directories; those above the last directory import two files from the next. -/
def deepWorld (n : Nat) : World where
  resolve p := String.ofList (List.replicate (p.comps.length - 1) 'a' ++ (p.comps.getLastD "").toList)
  disk id := if id.length < n + 9 then .ok twoImports else if id.length = n + 9 then .ok noImports
    else .error "No such file or directory (os error 2)"
  writeErr _ := none

theorem deep_read (n k : Nat) (name : String) (hn : name.length = 9) :
    (deepWorld n).read (deepFile k name) = if k < n then .ok twoImports else if k = n then
      .ok noImports else .error "No such file or directory (os error 2)" := by
  have hl : ((deepWorld n).resolve (deepFile k name)).length = k + 9 := by
    simp [deepWorld, deepFile, ← hn]
  simp only [World.read, deepWorld] at hl ⊢
  rw [hl]
  simp

theorem deep_pop (k : Nat) (name : String) : (deepFile k name).pop = ⟨true, List.replicate k "a"⟩ := by
  simp [deepFile, Path.pop]

theorem two_lines : linesC twoImports.toList =
    ["#import \"./a/g.graphql\"".toList, "#import \"./a/h.graphql\"".toList,
      "fragment F on T { x }".toList] := by decide +kernel

theorem no_lines : linesC noImports.toList = ["fragment F on T { x }".toList] := by decide +kernel

theorem kind_g : lineKind "#import \"./a/g.graphql\"".toList = .import "./a/g.graphql\"".toList := by
  rfl

theorem kind_h : lineKind "#import \"./a/h.graphql\"".toList = .import "./a/h.graphql\"".toList := by
  rfl

theorem kind_f : lineKind "fragment F on T { x }".toList = .stop := by rfl

theorem target_g (cfg : CompileConfig) (hc : cfg.rootDirImportPrefix = none) (k : Nat) :
    getFilePathOfFragment cfg "./a/g.graphql\"".toList ⟨true, List.replicate k "a"⟩ =
      some (deepFile (k + 1) "g.graphql") := by
  have h1 : importPathText "./a/g.graphql\"".toList = some "./a/g.graphql".toList := by decide +kernel
  have h2 : Path.ofChars "./a/g.graphql".toList = ⟨false, [".", "a", "g.graphql"]⟩ := by decide +kernel
  rw [getFilePathOfFragment, h1]
  simp only [Option.map_some, resolveImport, hc, Option.bind_none]
  rw [if_pos (by decide +kernel), h2]
  simp [Path.join, deepFile, List.replicate_succ']

theorem target_h (cfg : CompileConfig) (hc : cfg.rootDirImportPrefix = none) (k : Nat) :
    getFilePathOfFragment cfg "./a/h.graphql\"".toList ⟨true, List.replicate k "a"⟩ =
      some (deepFile (k + 1) "h.graphql") := by
  have h1 : importPathText "./a/h.graphql\"".toList = some "./a/h.graphql".toList := by decide +kernel
  have h2 : Path.ofChars "./a/h.graphql".toList = ⟨false, [".", "a", "h.graphql"]⟩ := by decide +kernel
  rw [getFilePathOfFragment, h1]
  simp only [Option.map_some, resolveImport, hc, Option.bind_none]
  rw [if_pos (by decide +kernel), h2]
  simp [Path.join, deepFile, List.replicate_succ']

/-- The files of the project below the first directory. -/
def deepFiles : Nat → List Path
  | 0 => []
  | k + 1 => deepFile (k + 1) "g.graphql" :: deepFile (k + 1) "h.graphql" :: deepFiles k

theorem mem_deepFiles {n k : Nat} (hk : k < n) :
    deepFile (k + 1) "g.graphql" ∈ deepFiles n ∧ deepFile (k + 1) "h.graphql" ∈ deepFiles n := by
  induction n with
  | zero => exact absurd hk (Nat.not_lt_zero _)
  | succ n ih =>
    rcases Nat.lt_succ_iff_lt_or_eq.1 hk with h | rfl
    · exact ⟨.tail _ (.tail _ (ih h).1), .tail _ (.tail _ (ih h).2)⟩
    · exact ⟨.head _, .tail _ (.head _)⟩

theorem length_deepFiles (n : Nat) : (deepFiles n).length = 2 * n := by
  induction n with
  | zero => rfl
  | succ n ih => simp only [deepFiles, List.length_cons, ih]; omega

theorem deep_accesses (cfg : CompileConfig) (hc : cfg.rootDirImportPrefix = none) (n : Nat) :
    ∀ (d k fuel : Nat) (name : String) (s : ImportSt), k + d = n → d < fuel →
      ∃ s', addImported (deepWorld n) cfg fuel (deepFile k name)
          (if k < n then twoImports else noImports) s = some (.done s') ∧
        (accesses (deepWorld n) (addImportedOps cfg fuel (deepFile k name)
          (if k < n then twoImports else noImports) s)).length = 2 ^ (d + 1) - 2 ∧
        ∀ a ∈ accesses (deepWorld n) (addImportedOps cfg fuel (deepFile k name)
          (if k < n then twoImports else noImports) s), ∃ q ∈ deepFiles n, a = .read q
  | 0, k, 0, _, _, _, h => absurd h (Nat.lt_irrefl _)
  | d + 1, k, 0, _, _, _, h => absurd h (Nat.not_lt_zero _)
  | 0, k, fuel + 1, name, s, hk, _ => by
    have : ¬ k < n := by omega
    rw [if_neg this]
    simp only [addImported, addImportedOps, no_lines, importLoop, importLoopOps, kind_f]
    exact ⟨s, rfl, rfl, fun a ha => (List.not_mem_nil ha).elim⟩
  | d + 1, k, fuel + 1, name, s, hk, hf => by
    have hkn : k < n := by omega
    have hread : ∀ name : String, name.length = 9 → (deepWorld n).read (deepFile (k + 1) name) =
        .ok (if k + 1 < n then twoImports else noImports) := by
      intro name hname
      rw [deep_read n (k + 1) name hname]
      by_cases h : k + 1 < n
      · simp [h]
      · have : k + 1 = n := by omega
        simp [this]
    obtain ⟨s1, hs1, hl1, hm1⟩ := deep_accesses cfg hc n d (k + 1) fuel "g.graphql" s
      (by omega) (by omega)
    generalize hT : (if k + 1 < n then twoImports else noImports) = T at hread hs1 hl1 hm1
    obtain ⟨s2, hs2, hl2, hm2⟩ := deep_accesses cfg hc n d (k + 1) fuel "h.graphql"
      ⟨AMap.insert s1.imports (deepFile (k + 1) "g.graphql")
        (T, Location.ofLineAndColumn (0 + 1) (String.ofList "#import \"./a/g.graphql\"".toList) 9),
        s1.messages⟩
      (by omega) (by omega)
    rw [hT] at hs2 hl2 hm2
    rw [if_pos hkn]
    have hrg := hread "g.graphql" (by decide)
    have hrh := hread "h.graphql" (by decide)
    have hmem := mem_deepFiles hkn
    simp only [addImported, addImportedOps, two_lines, importLoop, importLoopOps, kind_g, kind_h, kind_f,
      deep_pop, target_g cfg hc, target_h cfg hc, readGraphqlFile, accesses, hrg, hrh, hs1, hs2,
      accesses_bind, addImportedOps_run]
    refine ⟨_, rfl, ?_, ?_⟩
    · simp only [List.length_cons, List.length_append, hl1, hl2, List.length_nil]
      have : 2 ≤ 2 ^ (d + 1) := by
        rw [Nat.pow_succ]; have := Nat.one_le_two_pow (n := d); omega
      rw [Nat.pow_succ 2 (d + 1)]
      omega
    · intro a ha
      simp only [List.mem_cons, List.mem_append, List.not_mem_nil, or_false] at ha
      rcases ha with rfl | ha | rfl | ha
      · exact ⟨_, hmem.1, rfl⟩
      · exact hm1 a ha
      · exact ⟨_, hmem.2, rfl⟩
      · exact hm2 a ha

/-- C105, how bad it gets: for every `n` there is a project of `2 n + 1` documents, none importing more
than two others and no two importing each other, where compiling one document reads files
`2 ^ (n + 1) - 1` times.  This holds for every schema, and every parser that accepts that document. -/
theorem C105_exponential_witness (n : Nat) (ω : Hash) (fuel : Nat) (hf : n < fuel) (ext : Ext)
    (cfg : CompileConfig) (hc : cfg.rootDirImportPrefix = none) (schema : Schema) (d : Definition)
    (hp : ext.parse ((if 0 < n then twoImports else noImports)) = .ok [d]) :
    ∃ files : List Path, files.length = 2 * n + 1 ∧
      (∀ q, .read q ∈ accesses (deepWorld n) (compileOps ω fuel ext cfg schema
        (deepFile 0 "f.graphql")) → q ∈ files) ∧
      ((accesses (deepWorld n) (compileOps ω fuel ext cfg schema (deepFile 0 "f.graphql"))).filter
        (fun a => match a with | .read _ => true | .wrote _ => false)).length = 2 ^ (n + 1) - 1 := by
  obtain ⟨s', hs, hl, hm⟩ := deep_accesses cfg hc n n 0 fuel "f.graphql" ⟨[], []⟩ (by omega) hf
  have hr := deep_read n 0 "f.graphql" (by decide)
  have hr' : (deepWorld n).read (deepFile 0 "f.graphql") =
      .ok (if 0 < n then twoImports else noImports) := by
    rw [hr]
    by_cases h : 0 < n
    · simp [h]
    · have : n = 0 := by omega
      simp [this]
  generalize (if 0 < n then twoImports else noImports) = T at *
  have hpg : parseGraphqlFile ext T (deepFile 0 "f.graphql") = .ok d := by
    rw [parseGraphqlFile, hp]
  have hshape : ∃ out : List Access, (∀ a ∈ out, ∃ q, a = .wrote q) ∧
      accesses (deepWorld n) (compileOps ω fuel ext cfg schema (deepFile 0 "f.graphql")) =
        .read (deepFile 0 "f.graphql") :: (accesses (deepWorld n) (addImportedOps cfg fuel
          (deepFile 0 "f.graphql") T ⟨[], []⟩) ++ out) := by
    unfold compileOps
    simp only [accesses, hr', hpg]
    rw [accesses_bind, addImportedOps_run, hs]
    refine ⟨_, ?_, rfl⟩
    simp only
    cases Operation.compile ω fuel ⟨schema, cfg.showDeprecationWarnings,
        (parseForeignFragments ω ext (deepFile 0 "f.graphql") s'.imports s'.messages).1⟩ d with
    | none => intro a ha; exact (List.not_mem_nil ha).elim
    | some r =>
      obtain ⟨r, ws⟩ := r
      cases r with
      | error es => intro a ha; exact (List.not_mem_nil ha).elim
      | ok op =>
        simp only
        cases compileIr ω op cfg.toTsConfig schema with
        | error e => intro a ha; exact (List.not_mem_nil ha).elim
        | ok c =>
          simp only [accesses]
          cases ((deepWorld n).write (outputPath (deepFile 0 "f.graphql")) c.contents).1 <;>
          · intro a ha
            simp only [accesses, List.mem_singleton] at ha
            exact ⟨_, ha⟩
  obtain ⟨out, hout, hshape⟩ := hshape
  refine ⟨deepFile 0 "f.graphql" :: deepFiles n, by rw [List.length_cons, length_deepFiles], ?_, ?_⟩
  · intro q hq
    rw [hshape] at hq
    rcases List.mem_cons.1 hq with h | h
    · cases h; exact List.mem_cons_self
    · rcases List.mem_append.1 h with h | h
      · obtain ⟨q', hq', he⟩ := hm _ h
        cases he
        exact List.mem_cons_of_mem _ hq'
      · obtain ⟨q', he⟩ := hout _ h
        cases he
  · rw [hshape, List.filter_cons]
    simp only [if_true, List.length_cons, List.filter_append, List.length_append]
    rw [List.filter_eq_self.2, List.filter_eq_nil_iff.2, hl, List.length_nil]
    · have : 2 ≤ 2 ^ (n + 1) := by
        rw [Nat.pow_succ]; have := Nat.one_le_two_pow (n := n); omega
      omega
    · intro a ha
      obtain ⟨q, rfl⟩ := hout a ha
      simp
    · intro a ha
      obtain ⟨q, _, rfl⟩ := hm a ha
      rfl

end Qlc
