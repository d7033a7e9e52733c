import Verif.Spec.Json
import Verif.Spec.Program
/-
What can be wrong with the two JSON files that are read before anything is compiled.
-/
set_option autoImplicit false

namespace Qlc.Spec

/-- Why a configuration file stops the program: the kind of message and its text.  `named` says whether the
file was named on the command line; a missing `.qlcrc.json` is no complaint. -/
inductive ConfigComplaint (named : Bool) (path : Path) : JsonFile → Level → String → Prop where
  | missing (e : String) : named = true → ConfigComplaint named path (.notFound e) .compileError
      ("could not read `" ++ path.display ++ "`: " ++ e)
  | unreadable (e : String) : ConfigComplaint named path (.ioError e) .compileError
      ("could not read `" ++ path.display ++ "`: " ++ e)
  | notJson (e : String) : ConfigComplaint named path (.syntaxError e) .programError
      ("error in config file `" ++ path.display ++ "`: " ++ e)
  | wrongShape (j : Json) (e : String) : (¬ ∃ c, ReadsConfig j c) →
      ConfigComplaint named path (.tree j e) .programError
        ("error in config file `" ++ path.display ++ "`: " ++ e)

/-- Why a schema file stops the program. -/
inductive SchemaFileComplaint (path : Path) : JsonFile → String → Prop where
  | missing (e : String) : SchemaFileComplaint path (.notFound e)
      ("could not read `" ++ path.display ++ "`: " ++ e)
  | unreadable (e : String) : SchemaFileComplaint path (.ioError e)
      ("could not read `" ++ path.display ++ "`: " ++ e)
  | notJson (e : String) : SchemaFileComplaint path (.syntaxError e)
      ("malformed schema: JSON parse error: " ++ e)
  | wrongShape (j : Json) (e : String) : (¬ ∃ s, ReadsIntrospection j s) →
      SchemaFileComplaint path (.tree j e) ("malformed schema: JSON parse error: " ++ e)
  | faulty (j : Json) (e : String) (s : JSchema) (r : String) : ReadsIntrospection j s →
      FirstFault TypeOk TypeFault s.types r →
      SchemaFileComplaint path (.tree j e) ("malformed schema: " ++ r)

/-- The schema file can be used. -/
def SchemaFileUsable : JsonFile → Prop
  | .tree j _ => ∃ s, ReadsIntrospection j s ∧ ∀ t ∈ s.types, TypeOk t
  | _ => False

end Qlc.Spec
