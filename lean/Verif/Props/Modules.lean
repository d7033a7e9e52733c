import Verif.Spec.Modules
import Verif.Props.Imports
import Verif.Props.Compile
import Verif.Props.Globals
/-
Property C70: where the globals module is written.
-/
set_option autoImplicit false

namespace Qlc
open Spec

theorem splitSlash_noSlash {base : List Char} (h : '/' ∉ base) : splitSlash base = [base] := by
  induction base with
  | nil => rfl
  | cons c cs ih =>
    simp only [List.mem_cons, not_or] at h
    rw [splitSlash, if_neg (Ne.symm h.1), ih h.2]

theorem splitSlash_ne_nil (l : List Char) : splitSlash l ≠ [] := by
  cases l with
  | nil => simp [splitSlash]
  | cons c cs =>
    rw [splitSlash]
    split
    · simp
    · split <;> simp

theorem splitSlash_append (a b : List Char) : splitSlash (a ++ '/' :: b) = splitSlash a ++ splitSlash b := by
  induction a with
  | nil => simp [splitSlash]
  | cons c cs ih =>
    rw [List.cons_append, splitSlash, splitSlash, ih]
    split
    · rfl
    · cases h : splitSlash cs with
      | nil => exact absurd h (splitSlash_ne_nil cs)
      | cons l ls => rfl

/-- A component that is not `.`. -/
structure GoodBase (base : List Char) : Prop where
  nonempty : base ≠ []
  noSlash : '/' ∉ base
  notDot : base ≠ ['.']

theorem GoodBase.ne_dot {base : List Char} (h : GoodBase base) : String.ofList base ≠ "." := by
  intro e
  apply h.notDot
  have := congrArg String.toList e
  rw [String.toList_ofList] at this
  rw [this]; decide

theorem ofChars_last (dirs : List Char) (hd : dirs = [] ∨ dirs.getLast? = some '/') :
    ∃ A C, ∀ base, GoodBase base → Path.ofChars (dirs ++ base) = ⟨A, C ++ [String.ofList base]⟩ := by
  rcases hd with rfl | hd
  · refine ⟨false, [], fun base hb => ?_⟩
    have h1 : base.head? ≠ some '/' := by
      intro e
      exact hb.noSlash (List.mem_of_mem_head? e)
    have h2 : base.isEmpty = false := by cases base with
      | nil => exact absurd rfl hb.nonempty
      | cons => rfl
    unfold Path.ofChars
    simp only [List.nil_append, h1, decide_false, splitSlash_noSlash hb.noSlash, List.filter_cons, h2,
      Bool.not_false, if_true, List.filter_nil, List.map_cons, List.map_nil, List.head?_cons,
      Option.some.injEq, hb.ne_dot, and_false, if_false, ne_eq, not_false_eq_true, decide_true]
  · obtain ⟨d, rfl⟩ : ∃ d, dirs = d ++ ['/'] := by
      have hne : dirs ≠ [] := fun e => by rw [e] at hd; simp at hd
      rw [List.getLast?_eq_some_getLast hne] at hd
      injection hd with hd
      exact ⟨dirs.dropLast, by rw [← hd]; exact (List.dropLast_concat_getLast hne).symm⟩
    generalize hP : ((splitSlash d).filter (fun c => !c.isEmpty)).map String.ofList = P
    generalize hA : decide ((d ++ ['/']).head? = some '/') = A
    have key : ∀ base, GoodBase base → Path.ofChars (d ++ ['/'] ++ base) =
        (if A = false ∧ (P ++ [String.ofList base]).head? = some "." then
          ⟨false, "." :: (P ++ [String.ofList base]).tail.filter (· ≠ ".")⟩
         else ⟨A, (P ++ [String.ofList base]).filter (· ≠ ".")⟩) := by
      intro base hb
      have h2 : base.isEmpty = false := by cases base with
        | nil => exact absurd rfl hb.nonempty
        | cons => rfl
      have h3 : (d ++ ['/'] ++ base).head? = (d ++ ['/']).head? := by cases d <;> rfl
      have h4 : splitSlash (d ++ ['/'] ++ base) = splitSlash d ++ [base] := by
        rw [List.append_assoc, List.singleton_append, splitSlash_append, splitSlash_noSlash hb.noSlash]
      unfold Path.ofChars
      simp only [h3, hA, h4, List.filter_append, List.map_append, hP, List.filter_cons, h2, Bool.not_false,
        if_true, List.filter_nil, List.map_cons, List.map_nil]
    cases P with
    | nil =>
      refine ⟨A, [], fun base hb => ?_⟩
      rw [key base hb]
      simp [hb.ne_dot]
    | cons p P =>
      by_cases h : A = false ∧ p = "."
      · refine ⟨false, "." :: P.filter (· ≠ "."), fun base hb => ?_⟩
        rw [key base hb]
        simp [h.1, h.2, hb.ne_dot]
      · refine ⟨A, (p :: P).filter (· ≠ "."), fun base hb => ?_⟩
        rw [key base hb, if_neg (by simpa using h)]
        simp only [List.filter_append, List.filter_cons (x := String.ofList base), List.filter_nil, ne_eq,
          hb.ne_dot, not_false_eq_true, decide_true, if_true]

theorem under_last (root : Path) (dirs : List Char) (hd : dirs = [] ∨ dirs.getLast? = some '/') :
    ∃ A C, ∀ base, GoodBase base → under root (dirs ++ base) = ⟨A, C ++ [String.ofList base]⟩ := by
  obtain ⟨A, C, h⟩ := ofChars_last dirs hd
  by_cases hA : A = true
  · refine ⟨A, C, fun base hb => ?_⟩
    rw [← join_under, h base hb]
    simp [Path.join, hA]
  by_cases hr : (root.abs || !root.comps.isEmpty) = true
  · cases C with
    | nil =>
      refine ⟨root.abs, root.comps, fun base hb => ?_⟩
      rw [← join_under, h base hb]
      unfold Path.join
      simp only [hA, if_false, hr, if_true, List.nil_append, List.head?_cons, Option.some.injEq, hb.ne_dot,
        Bool.false_eq_true]
    | cons c C =>
      by_cases hc : c = "."
      · refine ⟨root.abs, root.comps ++ C, fun base hb => ?_⟩
        rw [← join_under, h base hb]
        unfold Path.join
        simp only [hA, if_false, hr, if_true, List.cons_append, List.head?_cons, hc, List.tail_cons,
          Bool.false_eq_true, List.append_assoc]
      · refine ⟨root.abs, root.comps ++ c :: C, fun base hb => ?_⟩
        rw [← join_under, h base hb]
        unfold Path.join
        simp only [hA, if_false, hr, if_true, List.cons_append, List.head?_cons, Option.some.injEq, hc,
          Bool.false_eq_true, List.append_assoc]
  · refine ⟨A, C, fun base hb => ?_⟩
    rw [← join_under, h base hb]
    unfold Path.join
    simp only [hA, if_false, hr, Bool.false_eq_true]

theorem globalsPath_below {cfg : CompileConfig} {root : Path} {rest : List Char}
    (h : BelowRoot cfg.rootDirImportPrefix cfg.globalTypesModuleName.toList rest) :
    globalsPath cfg root = (if (under root rest).extension.isSome then under root rest
      else (under root rest).withExtension "ts") := by
  unfold globalsPath
  cases h with
  | stripped hp hn =>
    rw [hp]
    simp only [Option.bind_some, stripPrefixC_some.2 hn, join_under]
  | whole hno =>
    have : cfg.rootDirImportPrefix.bind
        (fun pre => stripPrefixC pre.toList cfg.globalTypesModuleName.toList) = none := by
      cases hp : cfg.rootDirImportPrefix with
      | none => rfl
      | some pre => exact stripPrefixC_none.2 (hno pre hp)
    rw [this]
    simp only [Path.ofString, join_under]

theorem stemExt_noDot {base : List Char} (h : '.' ∉ base) : stemExt (String.ofList base) = (String.ofList base, none) := by
  have : splitLastDot base = none := by
    unfold splitLastDot
    have : base.reverse.dropWhile (fun c => decide (c ≠ '.')) = [] := by
      rw [dropWhile_eq_nil]
      intro x hx
      have : x ≠ '.' := fun e => h (by rw [← e]; simpa using hx)
      simp [this]
    simp only [this]
  unfold stemExt
  rw [String.toList_ofList, this]

/-- **C70.** If the last component of the configured module name has no dot, then the globals are written to
the file that has the module's name with `.ts` appended, below the root directory: generated files import
the module by that name.  A configured import prefix at the start of the name stands for the root directory. -/
theorem C70_globals_location (cfg : CompileConfig) (root : Path) (rest dirs base : List Char)
    (h : BelowRoot cfg.rootDirImportPrefix cfg.globalTypesModuleName.toList rest)
    (hrest : rest = dirs ++ base) (hl : LastComponent dirs base) (hdot : '.' ∉ base) :
    globalsPath cfg root = under root (rest ++ ['.', 't', 's']) := by
  subst hrest
  obtain ⟨A, C, hu⟩ := under_last root dirs hl.dirs
  have g1 : GoodBase base := ⟨hl.nonempty, hl.noSlash, fun e => hdot (by rw [e]; simp)⟩
  have g2 : GoodBase (base ++ ['.', 't', 's']) := by
    refine ⟨by simp, ?_, ?_⟩
    · simp only [List.mem_append, hl.noSlash, false_or]; decide
    · intro e
      have := congrArg List.length e
      simp at this
  rw [globalsPath_below h, List.append_assoc, hu base g1, hu _ g2]
  have hfn : Path.fileName ⟨A, C ++ [String.ofList base]⟩ = some (String.ofList base) := by
    unfold Path.fileName
    simp only [List.getLast?_append, List.getLast?_singleton, Option.some_or]
    rw [if_neg]
    rintro (e | e)
    · have := congrArg String.toList e
      rw [String.toList_ofList] at this
      exact hdot (by rw [this]; decide)
    · exact g1.ne_dot e
  have hext : Path.extension ⟨A, C ++ [String.ofList base]⟩ = none := by
    unfold Path.extension
    rw [hfn, Option.bind_some, stemExt_noDot hdot]
  rw [hext]
  unfold Path.withExtension
  rw [hfn]
  simp only [Option.isSome_none, Bool.false_eq_true, if_false, stemExt_noDot hdot, List.dropLast_concat]
  congr 3
  apply String.toList_inj.1
  simp

/-- **C70.** If the last component has a dot after its first character, the part after the dot is taken for
a file extension: the globals are written to a file with exactly the configured name.  The file is a
TypeScript module only if the name ends in such an extension, but generated files import it by that name. -/
theorem C70_globals_location_dotted (cfg : CompileConfig) (root : Path) (rest dirs stem ext : List Char)
    (h : BelowRoot cfg.rootDirImportPrefix cfg.globalTypesModuleName.toList rest)
    (hrest : rest = dirs ++ (stem ++ '.' :: ext)) (hl : LastComponent dirs (stem ++ '.' :: ext))
    (hs : stem ≠ []) (hne : stem ++ '.' :: ext ≠ ['.', '.']) (hx : '.' ∉ ext) :
    globalsPath cfg root = under root rest := by
  subst hrest
  obtain ⟨A, C, hu⟩ := under_last root dirs hl.dirs
  have g1 : GoodBase (stem ++ '.' :: ext) := ⟨hl.nonempty, hl.noSlash, fun e => by
    have := congrArg List.length e
    cases stem with
    | nil => exact hs rfl
    | cons => simp at this⟩
  rw [globalsPath_below h, hu _ g1, if_pos]
  unfold Path.extension Path.fileName
  simp only [List.getLast?_append, List.getLast?_singleton, Option.some_or]
  rw [if_neg]
  · rw [Option.bind_some, (stemExt_some _ (String.ofList ext)).2]
    · rfl
    · refine ⟨String.ofList stem, ?_, ?_, by simpa using hx⟩
      · intro e
        have := congrArg String.toList e
        rw [String.toList_ofList] at this
        exact hs this
      · apply String.toList_inj.1
        simp
  · rintro (e | e)
    · have := congrArg String.toList e
      rw [String.toList_ofList] at this
      exact hne (by rw [this]; decide)
    · exact g1.ne_dot e

/-- **C70**, for the file system: the globals file is the only one that is written. -/
theorem C70_globals_written (ω : Hash) (fuel : Nat) (schema : Schema) (used : List String)
    (cfg : CompileConfig) (root : Path) (rest dirs base : List Char)
    (h : BelowRoot cfg.rootDirImportPrefix cfg.globalTypesModuleName.toList rest)
    (hrest : rest = dirs ++ base) (hl : LastComponent dirs base) (hdot : '.' ∉ base)
    (hreg : NamedAsRegistered schema) (w w' : World) (hne : used ≠ [])
    (hok : compileGlobalTypesFile ω fuel cfg schema w root used = some (.ok (), w')) :
    ∃ names decls : List String,
      (∀ n, n ∈ names ↔ GlobalName schema used n) ∧
      List.Forall₂ (DeclaresGlobal cfg.toTsConfig schema) names decls ∧
      w'.disk (w.resolve (under root (rest ++ ['.', 't', 's']))) =
        .ok (generatedHeader ++ joinWith "\n\n" decls) ∧
      ∀ id, id ≠ w.resolve (under root (rest ++ ['.', 't', 's'])) → w'.disk id = w.disk id := by
  rw [← C70_globals_location cfg root rest dirs base h hrest hl hdot]
  obtain ⟨names, decls, _, h2, h3, h4, h5⟩ := C30_globals_file ω fuel schema used cfg hreg w w' root hne hok
  exact ⟨names, decls, h2, h3, h4, h5⟩

/-! ### Examples -/

/-- Root prefix `@/`, module `@/types/globals`: the file is `types/globals.ts` in the root directory. -/
example : BelowRoot (some "@/") "@/types/globals".toList "types/globals".toList ∧
    LastComponent "types/".toList "globals".toList ∧
    under ⟨true, ["r"]⟩ ("types/globals".toList ++ ['.', 't', 's']) = ⟨true, ["r", "types", "globals.ts"]⟩ := by
  refine ⟨.stripped rfl (by decide), ⟨by decide, by decide, by decide⟩, by decide⟩

/-- A dotted name is not given the suffix. -/
example : globalsPath { Demo.cfg with globalTypesModuleName := "graphql.globals" } ⟨true, ["r"]⟩ =
    ⟨true, ["r", "graphql.globals"]⟩ := by decide

/-- **C70**, the trap: with the prefix `@`, the module `@/globals` is written outside of the root
directory. -/
theorem C70_defect_witness :
    globalsPath { Demo.cfg with globalTypesModuleName := "@/globals", rootDirImportPrefix := some "@" }
      ⟨true, ["r"]⟩ = ⟨true, ["globals.ts"]⟩ := by decide

end Qlc
