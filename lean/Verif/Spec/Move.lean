import Verif.Spec.Rename
import Verif.Spec.Program
/-
Moving a project, or the files in it, and organising its imports in another way (C117).
-/
set_option autoImplicit false

namespace Qlc.Spec

/-- The same definition: the same name, selections and variables.  Positions, arguments and directives may differ,
so a file may be laid out anew. -/
def SameDefinition (d d' : Definition) : Prop := RenamedDef id d d' ∧ dataName d' = dataName d

/-- The document `p` of one project and `p'` of another are the same document: they have the same definition, and
they import the same fragments, by whatever chains of import lines and from whatever files. -/
structure SameDocument (ext : Ext) (cfg : CompileConfig) (w : World) (p : Path) (cfg' : CompileConfig) (w' : World)
    (p' : Path) : Prop where
  definition : ∀ d, OnlyDefinition ext w p d → ∃ d', OnlyDefinition ext w' p' d' ∧ SameDefinition d d'
  kept : ∀ c c' f, w.read p = .ok c → w'.read p' = .ok c' → ImportedFragment ext w cfg p c f →
    ∃ f', ImportedFragment ext w' cfg' p' c' f' ∧ RenamedFragment id f f'
  noNew : ∀ c c' f', w.read p = .ok c → w'.read p' = .ok c' → ImportedFragment ext w' cfg' p' c' f' →
    ∃ f, ImportedFragment ext w cfg p c f ∧ RenamedFragment id f f'

/-- All files that `p` imports, directly or not, can be read, and those that parse as one definition define a
fragment. -/
def ImportsInOrder (ext : Ext) (cfg : CompileConfig) (w : World) (p : Path) : Prop :=
  ∀ c, w.read p = .ok c → (∀ m, ¬ ImportErr w cfg p c m) ∧
    ∀ q t d, Loads w cfg p c q → w.read q = .ok t → ext.parse t = .ok [d] → ∃ f, d = .fragment f

/-- The project in `root'` has the documents of the project in `root`, `p` being at `φ p` there, and all its
directories can be listed, its imports read and its outputs written. -/
structure Reorganised (ext : Ext) (cfg : CompileConfig) (w : World) (root : Entry) (cfg' : CompileConfig) (w' : World)
    (rootPath' : Path) (root' : Entry) (φ : Path → Path) : Prop where
  settings : cfg'.toTsConfig = cfg.toTsConfig ∧ cfg'.showDeprecationWarnings = cfg.showDeprecationWarnings
  found : ∀ p, FoundIn root p → FoundIn root' (φ p)
  noOthers : ∀ p', FoundIn root' p' → ∃ p, FoundIn root p ∧ φ p = p'
  same : ∀ p, FoundIn root p → SameDocument ext cfg w p cfg' w' (φ p)
  imports : ∀ p', FoundIn root' p' → ImportsInOrder ext cfg' w' p'
  directories : dirErrors root' = []
  outputs : ∀ p', FoundIn root' p' → w'.writeErr (w'.resolve (outputPath p')) = none
  globals : w'.writeErr (globalsId w' cfg' rootPath') = none

/-! ### Moving the root directory -/

/-- The path `rest` below the directory `r`. -/
def below (r : Path) (rest : List String) : Path := ⟨r.abs, r.comps ++ rest⟩

/-- A root directory that is not the empty path. -/
def ProperRoot (r : Path) : Prop := r.abs = true ∨ r.comps ≠ []

/-- The path that an import text stands for: what follows the prefix for the root directory, if there
is one and the text begins with it. -/
def afterPrefix (cfg : CompileConfig) (text : List Char) : List Char :=
  (cfg.rootDirImportPrefix.bind (fun pre => stripPrefixC pre.toList text)).getD text

/-- No file that compiling `p` reads has an import whose path is absolute. -/
def NoAbsoluteImports (cfg : CompileConfig) (w : World) (p : Path) : Prop :=
  ∀ q c il t, Reads w cfg p q → w.read q = .ok c → il ∈ importsOf c → importPathText il.after = some t →
    (afterPrefix cfg t).head? ≠ some '/'

/-- The project with root directory `r` has been copied or moved to `r'`: the same documents are found there, each
file that compiling them reads has the same text there, and imports are not absolute. -/
structure RootMoved (cfg : CompileConfig) (w : World) (root : Entry) (cfg' : CompileConfig) (w' : World)
    (root' : Entry) : Prop where
  settings : cfg' = { cfg with rootDir := cfg'.rootDir }
  roots : ProperRoot cfg.rootDir ∧ ProperRoot cfg'.rootDir
  inside : ∀ p, FoundIn root p → ∃ rest, p = below cfg.rootDir rest
  inside' : ∀ p, FoundIn root' p → ∃ rest, p = below cfg'.rootDir rest
  documents : ∀ rest, FoundIn root (below cfg.rootDir rest) ↔ FoundIn root' (below cfg'.rootDir rest)
  files : ∀ p rest, FoundIn root p → Reads w cfg p (below cfg.rootDir rest) →
    rest ≠ [] ∧ w'.read (below cfg'.rootDir rest) = w.read (below cfg.rootDir rest)
  relative : ∀ p, FoundIn root p → NoAbsoluteImports cfg w p

end Qlc.Spec
