import Verif.Spec.Emit
/-
How generated types are named, and which possible object types share one.
-/
set_option autoImplicit false

namespace Qlc.Spec

/-- Every response key of the alternative is one of all alternatives: it adds nothing of its own. -/
def Shared (ps : List Complex) (c : Complex) : Prop :=
  ∀ x ∈ c.fields.map IRField.propName, ∀ d ∈ ps, x ∈ d.fields.map IRField.propName

instance (ps : List Complex) (c : Complex) : Decidable (Shared ps c) := by
  unfold Shared; infer_instance

/-- The object types printed for the alternatives `ps` at the position called `n`, and the alternatives
each stands for.  If no alternative has a response key of its own they share one type, called `n`.
Otherwise each alternative with a response key of its own gets a type, called after the object type, and
the others share one called `n_$$other`. -/
def groups (n : String) (ps : List Complex) : List (String × List Complex) :=
  if ∀ c ∈ ps, Shared ps c then [(n, ps)]
  else
    (ps.filter (fun c => decide (¬ Shared ps c))).map (fun c => (n ++ "_" ++ c.name, [c])) ++
    if ∃ c ∈ ps, Shared ps c then [(n ++ "_$$other", ps.filter (fun c => decide (Shared ps c)))] else []

/-- `Named decls k n ps`: down to depth `k`, the types printed for the alternatives `ps` at the position
called `n` are those of `groups`; the position below the response key `key` of the type `t` is called
`t_key`; a property of kind `__typename` admits the object types that the type stands for. -/
def Named (decls : List TsDecl) : Nat → String → List Complex → Prop
  | 0, _, _ => True
  | k + 1, n, ps => ∃ objs : List (String × List TsProp),
      Resolves decls n objs ∧
      List.Forall₂ (fun (g : String × List Complex) (o : String × List TsProp) =>
        o.1 = g.1 ∧ ∃ rep ∈ g.2, List.Forall₂ (fun (fld : IRField) (p : TsProp) =>
          p.name = fld.propName ∧
          (∀ sub, fld.type = .complex sub →
            p.flat = .declared (g.1 ++ "_" ++ fld.propName) ∧
            Named decls k (g.1 ++ "_" ++ fld.propName) sub) ∧
          (fld.type = .typeName → ∃ lits, p.flat = .literals lits ∧ lits.Perm (g.2.map Complex.name)))
          rep.fields o.2)
        (groups n ps) objs

/-- Every type of the schema that can be selected on has a possible object type. -/
def Inhabited (schema : Schema) : Prop :=
  ∀ e ∈ schema, match e.2.definition with
    | .interface _ _ ps => ps ≠ []
    | .union _ ps _ => ps ≠ []
    | _ => True

instance (schema : Schema) : Decidable (Inhabited schema) := by
  unfold Inhabited
  have : ∀ e : String × SType, Decidable (match e.2.definition with
    | .interface _ _ ps => ps ≠ []
    | .union _ ps _ => ps ≠ []
    | _ => True) := by
    intro e; cases e.2.definition <;> infer_instance
  infer_instance

end Qlc.Spec
