import Verif.Props.Imports
/-
Property C61: the error that quotes a line of another file.
-/
set_option autoImplicit false

namespace Qlc
open Spec

/-- C61, the defect: `/r/a` imports `/r/b` on line 2, `/r/b` imports the query `/r/c` on line 1; the
error names `/r/a` but shows line 1, which in `/r/a` is another line. -/
theorem C61_defect_witness :
    (match addImported importWorld importCfg 3 ⟨true, ["r", "a"]⟩
        "# header\n#import \"b\"\n#import \"m\"\nquery Q { x }" ⟨[], []⟩ with
      | some (.done st) => (parseForeignFragments .inOrder
          ⟨fun _ => .ok [.selectionSet ⟨1, 1⟩ []], fun _ _ => 0⟩ ⟨true, ["r", "a"]⟩
          (st.imports.take 1) []).2.map
            (fun m => (m.source.map (fun s => (s.path.display, s.location.map Location.lineNumber,
              s.location.map Location.line))))
      | _ => []) =
    [some ("/r/a", some "1", some "#import \"./c\"")] := by decide +kernel

end Qlc
