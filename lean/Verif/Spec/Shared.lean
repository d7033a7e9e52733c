import Verif.Model.Shared
import Verif.Spec.Crash
/-
Vocabulary for several invocations at the same time.
-/
set_option autoImplicit false

namespace Qlc.Spec

/-- `n` invocations with the same options and the same schema, each with hash seeds and a number of threads of
its own, are started on the files `fs`.  The steps of all their threads are interleaved in some way, a file is
written in pieces of any size, and in the end all of them have returned, having compiled every file found:
invocation `k` returned the messages `ms k`, and `fs'` are the files then. -/
def RunTogether (ext : Ext) (cfg : CompileConfig) (schema : Schema) (rootPath : Path) (root : Entry) (n : Nat)
    (ω : Nat → Path → Hash) (ω' : Nat → Hash) (fuel threads : Nat → Nat) (fs : ByteFs)
    (ms : Nat → List Msg) (fs' : ByteFs) : Prop :=
  ∃ (es : List (Nat × Actor × Nat)) (S : Sys),
    (∀ e ∈ es, e.1 < n) ∧
    S = (Sys.init fs (fun k => ⟨cfg, schema, ω k, ω' k, fuel k, threads k⟩) root).run ext rootPath
      (fun k => ⟨cfg, schema, ω k, ω' k, fuel k, threads k⟩) es ∧
    S.fs = fs' ∧
    ∀ k, k < n → (S.procs k).main = .returned (some (ms k)) ∧ pending (S.procs k).pool = []

end Qlc.Spec
