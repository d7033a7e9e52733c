import Verif.Conformance.Data
/-
The fixture suite of the repository, replayed in the model (see Replay.lean).  `#guard` evaluates the
model; nothing here is a proof and no theorem depends on it.
-/
set_option autoImplicit false

namespace Qlc.Conformance

/-- Two workers taking turns. -/
def turns (n : Nat) : List Nat := (List.range n).flatMap (fun _ => [0, 1])

/-- The second worker only starts when the first one has waited for a while. -/
def late (n : Nat) : List Nat := List.replicate n 0 ++ turns n

#guard all.length = 33
#guard all.all (Fixture.check schemaJson .inOrder 60 (turns 150))
#guard all.all (Fixture.check schemaJson .reversed 60 (turns 150))
#guard all.all (Fixture.check schemaJson .inOrder 60 (late 300))

/-- The first test once more, evaluated by the kernel. -/
example : compile_simple_query.check schemaJson .inOrder 60 (turns 60) = true := by decide +kernel

end Qlc.Conformance
