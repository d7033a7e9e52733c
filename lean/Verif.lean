import Verif.Model.Basic
import Verif.Model.Schema
import Verif.Model.Query
import Verif.Model.Variable
import Verif.Model.IR
import Verif.Model.Typescript
import Verif.Model.Path
import Verif.Model.Cli
import Verif.Model.Compile
import Verif.Model.Pool
import Verif.Model.Main
import Verif.Spec.Types
import Verif.Lemmas.Types
import Verif.Props.Types
import Verif.Spec.Schema
import Verif.Lemmas.Basic
import Verif.Props.Schema
import Verif.Props.Cli
import Verif.Spec.Imports
import Verif.Spec.Demo
import Verif.Props.Imports
import Verif.Props.ImportsWitness
import Verif.Props.Compile
import Verif.Spec.Pool
import Verif.Lemmas.Pool
import Verif.Lemmas.PoolLive
import Verif.Props.Pool
import Verif.Props.PoolResults
import Verif.Spec.Globals
import Verif.Lemmas.Globals
import Verif.Props.Globals
import Verif.Spec.Selections
import Verif.Lemmas.IRRep
import Verif.Lemmas.IRCollect
import Verif.Lemmas.IRTree
import Verif.Lemmas.IRValid
import Verif.Lemmas.IRTerm
import Verif.Props.Selections
import Verif.Props.Warnings
import Verif.Props.Positions
import Verif.Lemmas.IRDepth
import Verif.Props.Tree
import Verif.Props.Determinism
import Verif.Spec.Emit
import Verif.Lemmas.Emit
import Verif.Lemmas.EmitBodies
import Verif.Lemmas.EmitNames
import Verif.Lemmas.EmitRender
import Verif.Spec.Docs
import Verif.Props.Docs
import Verif.Lemmas.EmitDoc
import Verif.Props.Emit
import Verif.Spec.Erase
import Verif.Props.Erase
import Verif.Spec.Files
import Verif.Lemmas.Hash
import Verif.Props.Files
import Verif.Spec.Response
import Verif.Lemmas.Loaded
import Verif.Lemmas.Response
import Verif.Lemmas.Inhabit
import Verif.Lemmas.RespCheck
import Verif.Props.Response
import Verif.Model.Json
import Verif.Spec.Json
import Verif.Props.Json
import Verif.Model.Steps
import Verif.Spec.Crash
import Verif.Lemmas.Steps
import Verif.Lemmas.FinePool
import Verif.Props.Crash
import Verif.Spec.Names
import Verif.Lemmas.Names
import Verif.Props.Names
import Verif.Spec.Options
import Verif.Props.Options
import Verif.Spec.Modules
import Verif.Props.Modules
import Verif.Spec.Fair
import Verif.Lemmas.PoolFair
import Verif.Props.Fair
import Verif.Spec.Text
import Verif.Lemmas.Text
import Verif.Props.Text
import Verif.Spec.Program
import Verif.Props.Program
import Verif.Spec.Grammar
import Verif.Lemmas.Grammar
import Verif.Lemmas.GrammarFile
import Verif.Lemmas.GrammarDoc
import Verif.Lemmas.GrammarCheck
import Verif.Lemmas.ModuleAdmits
import Verif.Props.Grammar
import Verif.Spec.Scalars
import Verif.Spec.Inputs
import Verif.Lemmas.GrammarInputs
import Verif.Lemmas.InputsCheck
import Verif.Props.Inputs
import Verif.Spec.Diagnostics
import Verif.Props.Diagnostics
import Verif.Spec.Startup
import Verif.Props.Startup
import Verif.Model.Npm
import Verif.Spec.Npm
import Verif.Spec.Library
import Verif.Props.Npm
import Verif.Props.NpmTarget
import Verif.Props.Library
import Verif.Spec.Alike
import Verif.Props.Alike
import Verif.Spec.EndToEnd
import Verif.Props.EndToEnd
import Verif.Spec.Report
import Verif.Lemmas.Report
import Verif.Props.Report
import Verif.Spec.Exact
import Verif.Lemmas.Exact
import Verif.Props.Exact
import Verif.Model.Args
import Verif.Spec.Args
import Verif.Lemmas.Args
import Verif.Props.Args
import Verif.Props.Toolchain
import Verif.Spec.Same
import Verif.Props.Same
import Verif.Spec.Rewrite
import Verif.Props.Rewrite
import Verif.Spec.Growth
import Verif.Props.Growth
import Verif.Props.Regenerate
import Verif.Spec.Edit
import Verif.Props.Edit
import Verif.Model.Library
import Verif.Model.Release
import Verif.Spec.Release
import Verif.Lemmas.Release
import Verif.Props.Release
import Verif.Spec.FineFair
import Verif.Lemmas.FineFair
import Verif.Props.FineFair
import Verif.Spec.Ends
import Verif.Props.Ends
import Verif.Model.Shared
import Verif.Spec.Shared
import Verif.Lemmas.Bytes
import Verif.Lemmas.Shared
import Verif.Props.Shared
import Verif.Spec.Accesses
import Verif.Lemmas.Accesses
import Verif.Props.Accesses
import Verif.Props.PoolRace
import Verif.Props.PoolTop
import Verif.Props.PoolLose
import Verif.Props.FineRace
import Verif.Model.RawPath
import Verif.Spec.RawPath
import Verif.Lemmas.RawPath
import Verif.Props.RawPath
import Verif.Props.PoolMissing
import Verif.Props.DocTypes
import Verif.Props.NpmPath
import Verif.Props.Unchanged
import Verif.Props.Graphql
import Verif.Props.Project
import Verif.Props.Editing
import Verif.Props.Reorder
import Verif.Props.Ordinary
import Verif.Props.Size
import Verif.Props.Rename
import Verif.Props.Move
import Verif.Props.Correct
import Verif.Props.Compose
import Verif.Props.Extend
import Verif.Props.Narrow
import Verif.Props.Widen
import Verif.Props.Reproducible
import Verif.Props.Guideline
import Verif.Props.JsonText
import Verif.Props.TornText
import Verif.Props.GraphqlText
import Verif.Props.CutText
import Verif.Props.DocumentNames
import Verif.Props.WholeWay
import Verif.Props.Caret
import Verif.Props.Flat
import Verif.Props.Upgrade
import Verif.Props.Colour
import Verif.Props.Distance
import Verif.Props.Faults
import Verif.Props.History
import Verif.Props.Settings
import Verif.Props.UpToDate
import Verif.Props.Quiet
import Verif.Props.Restyle
import Verif.Props.SameProject
import Verif.Props.MoreDocuments
import Verif.Props.FewerDocuments
import Verif.Props.VariableOrder
import Verif.Props.Declarations
import Verif.Props.VariableRuns
import Verif.Conformance.Suite
import Verif.Conformance.Cli
import Verif.Conformance.Text
