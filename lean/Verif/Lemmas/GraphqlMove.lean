import Verif.Lemmas.GraphqlParse
/-
The same tokens in other places form the same definitions in other places.
-/
set_option autoImplicit false

namespace Qlc
open Spec

/-- The same tokens, perhaps in other places. -/
def Moved (ts ts' : Toks) : Prop := ts'.map Prod.snd = ts.map Prod.snd

theorem moved_nil {ts' : Toks} (h : Moved [] ts') : ts' = [] := by
  cases ts' with
  | nil => rfl
  | cons x r => cases h

theorem moved_cons {p : Pos} {t : GTok} {r ts' : Toks} (h : Moved ((p, t) :: r) ts') :
    ∃ p' r', ts' = (p', t) :: r' ∧ Moved r r' := by
  cases ts' with
  | nil => cases h
  | cons x r' =>
    obtain ⟨p', t'⟩ := x
    simp only [Moved, List.map_cons, List.cons.injEq] at h
    obtain ⟨rfl, h⟩ := h
    exact ⟨p', r', rfl, h⟩

theorem moved_one {p : Pos} {t : GTok} {ts' : Toks} (h : Moved [(p, t)] ts') : ∃ p', ts' = [(p', t)] := by
  have k := moved_cons h; clear h; obtain ⟨p', r', rfl, h⟩ := k
  obtain rfl := moved_nil h
  exact ⟨p', rfl⟩

theorem moved_append {a b ts' : Toks} (h : Moved (a ++ b) ts') : ∃ a' b', ts' = a' ++ b' ∧ Moved a a' ∧ Moved b b' := by
  unfold Moved at h
  rw [List.map_append, List.map_eq_append_iff] at h
  obtain ⟨a', b', rfl, h1, h2⟩ := h
  exact ⟨a', b', rfl, h1, h2⟩

theorem val_moved {const : Bool} {x : GPiece} {ts : Toks} (h : IsVal const x ts) :
    ∀ ts', Moved ts ts' → IsVal const x ts' := by
  induction h with
  | yes => intro ts' m; have k := moved_one m; clear m; obtain ⟨p, rfl⟩ := k; exact .yes
  | no => intro ts' m; have k := moved_one m; clear m; obtain ⟨p, rfl⟩ := k; exact .no
  | word h1 h2 => intro ts' m; have k := moved_one m; clear m; obtain ⟨p, rfl⟩ := k; exact .word h1 h2
  | number => intro ts' m; have k := moved_one m; clear m; obtain ⟨p, rfl⟩ := k; exact .number
  | string => intro ts' m; have k := moved_one m; clear m; obtain ⟨p, rfl⟩ := k; exact .string
  | var hc =>
    intro ts' m
    have k := moved_cons m; clear m; obtain ⟨p, r, rfl, m⟩ := k
    have k := moved_one m; clear m; obtain ⟨p', rfl⟩ := k
    exact .var hc
  | list _ ih =>
    intro ts' m
    have k := moved_append m; clear m; obtain ⟨a, b, rfl, m, m'⟩ := k
    have k := moved_cons m; clear m; obtain ⟨p, r, rfl, m⟩ := k
    have k := moved_one m'; clear m'; obtain ⟨p', rfl⟩ := k
    exact .list (ih _ m)
  | object _ ih =>
    intro ts' m
    have k := moved_append m; clear m; obtain ⟨a, b, rfl, m, m'⟩ := k
    have k := moved_cons m; clear m; obtain ⟨p, r, rfl, m⟩ := k
    have k := moved_one m'; clear m'; obtain ⟨p', rfl⟩ := k
    exact .object (ih _ m)
  | none =>
    intro ts' m
    rw [moved_nil m]
    exact .none
  | item _ _ ih ih' =>
    intro ts' m
    have k := moved_append m; clear m; obtain ⟨a, b, rfl, m, m'⟩ := k
    exact .item (ih _ m) (ih' _ m')
  | entry hb _ _ ih ih' =>
    intro ts' m
    have k := moved_cons m; clear m; obtain ⟨p, r, rfl, m⟩ := k
    have k := moved_cons m; clear m; obtain ⟨p', r', rfl, m⟩ := k
    have k := moved_append m; clear m; obtain ⟨a, b, rfl, m, m'⟩ := k
    exact .entry hb (ih _ m) (ih' _ m')

theorem args_moved {args : List (String × Value)} {ts ts' : Toks} (h : IsArguments args ts) (m : Moved ts ts') :
    IsArguments args ts' := by
  cases h with
  | none => rw [moved_nil m]; exact .none
  | some hne hv =>
    have k := moved_append m; clear m; obtain ⟨a, b, rfl, m, m'⟩ := k
    have k := moved_cons m; clear m; obtain ⟨p, r, rfl, m⟩ := k
    have k := moved_one m'; clear m'; obtain ⟨p', rfl⟩ := k
    exact .some hne (val_moved hv _ m)

theorem dirs_moved {dirs : List Directive} {ts : Toks} (h : IsDirectives dirs ts) :
    ∀ ts', Moved ts ts' → IsDirectives dirs ts' := by
  induction h with
  | nil => intro ts' m; rw [moved_nil m]; exact .nil
  | cons ha _ ih =>
    intro ts' m
    have k := moved_cons m; clear m; obtain ⟨p, r, rfl, m⟩ := k
    have k := moved_cons m; clear m; obtain ⟨p', r', rfl, m⟩ := k
    have k := moved_append m; clear m; obtain ⟨a, b, rfl, m, m'⟩ := k
    exact .cons (args_moved ha m) (ih _ m')

theorem fieldName_moved {pos : Pos} {al : Option String} {n : String} {ts ts' : Toks} (h : IsFieldName pos al n ts)
    (m : Moved ts ts') : ∃ pos', IsFieldName pos' al n ts' := by
  cases h with
  | plain => have k := moved_one m; clear m; obtain ⟨p, rfl⟩ := k; exact ⟨p, .plain⟩
  | aliased =>
    have k := moved_cons m; clear m; obtain ⟨p, r, rfl, m⟩ := k
    have k := moved_cons m; clear m; obtain ⟨p', r', rfl, m⟩ := k
    have k := moved_one m; clear m; obtain ⟨p'', rfl⟩ := k
    exact ⟨p, .aliased⟩

theorem condition_moved {c : Option String} {ts ts' : Toks} (h : IsCondition c ts) (m : Moved ts ts') :
    IsCondition c ts' := by
  cases h with
  | none => rw [moved_nil m]; exact .none
  | on =>
    have k := moved_cons m; clear m; obtain ⟨p, r, rfl, m⟩ := k
    have k := moved_one m; clear m; obtain ⟨p', rfl⟩ := k
    exact .on

/-- The piece with other places. -/
def SameSelPiece : SelPiece → SelPiece → Prop
  | .one s, .one s' => unplacedSel s' = unplacedSel s
  | .many ss, .many ss' => unplacedSels ss' = unplacedSels ss
  | _, _ => False

theorem selects_moved {x : SelPiece} {ts : Toks} (h : Selects x ts) :
    ∀ ts', Moved ts ts' → ∃ x', Selects x' ts' ∧ SameSelPiece x x' := by
  induction h with
  | field hn ha hd =>
    intro ts' m
    have k := moved_append m; clear m; obtain ⟨a, b, rfl, m, m'⟩ := k
    have k := moved_append m'; clear m'; obtain ⟨b, c, rfl, m', m''⟩ := k
    obtain ⟨pos', hn'⟩ := fieldName_moved hn m
    exact ⟨_, .field hn' (args_moved ha m') (dirs_moved hd _ m''), rfl⟩
  | fieldWith hn ha hd _ ih =>
    intro ts' m
    have k := moved_append m; clear m; obtain ⟨a, b, rfl, m, m'⟩ := k
    have k := moved_append m'; clear m'; obtain ⟨b, c, rfl, m', m''⟩ := k
    have k := moved_append m''; clear m''; obtain ⟨c, d, rfl, m'', m₃⟩ := k
    have k := moved_cons m₃; clear m₃; obtain ⟨p, r, rfl, m₃⟩ := k
    have k := moved_append m₃; clear m₃; obtain ⟨d, e, rfl, m₃, m₄⟩ := k
    have k := moved_one m₄; clear m₄; obtain ⟨p', rfl⟩ := k
    obtain ⟨pos', hn'⟩ := fieldName_moved hn m
    obtain ⟨x', h1, h2⟩ := ih _ m₃
    cases x' with
    | one s => exact absurd h2 id
    | many ss =>
      refine ⟨_, .fieldWith hn' (args_moved ha m') (dirs_moved hd _ m'') h1, ?_⟩
      have h2 : unplacedSels ss = _ := h2
      simp only [SameSelPiece, unplacedSel, h2]
  | «inline» hc hd _ _ ih =>
    intro ts' m
    have k := moved_cons m; clear m; obtain ⟨pos, r, rfl, m⟩ := k
    have k := moved_append m; clear m; obtain ⟨b, c, rfl, m', m''⟩ := k
    have k := moved_append m''; clear m''; obtain ⟨c, d, rfl, m'', m₃⟩ := k
    have k := moved_cons m₃; clear m₃; obtain ⟨p, r, rfl, m₃⟩ := k
    have k := moved_append m₃; clear m₃; obtain ⟨d, e, rfl, m₃, m₄⟩ := k
    have k := moved_one m₄; clear m₄; obtain ⟨p', rfl⟩ := k
    obtain ⟨x', h1, h2⟩ := ih _ m₃
    cases x' with
    | one s => exact absurd h2 id
    | many ss =>
      refine ⟨_, .inline (pos := nextPos p (b ++ c ++ [(p, .punct '{')])) (condition_moved hc m') (dirs_moved hd _ m'')
        (by rw [← List.append_assoc, head_of_nextPos p]) h1, ?_⟩
      have h2 : unplacedSels ss = _ := h2
      simp only [SameSelPiece, unplacedSel, h2]
  | spread hne hd =>
    intro ts' m
    have k := moved_cons m; clear m; obtain ⟨pos, r, rfl, m⟩ := k
    have k := moved_cons m; clear m; obtain ⟨p, r, rfl, m⟩ := k
    exact ⟨_, .spread hne (dirs_moved hd _ m), rfl⟩
  | last _ ih =>
    intro ts' m
    obtain ⟨x', h1, h2⟩ := ih _ m
    cases x' with
    | many ss => exact absurd h2 id
    | one s =>
      refine ⟨_, .last h1, ?_⟩
      have h2 : unplacedSel s = _ := h2
      simp only [SameSelPiece, unplacedSels, h2]
  | more _ _ ih ih' =>
    intro ts' m
    have k := moved_append m; clear m; obtain ⟨a, b, rfl, m, m'⟩ := k
    obtain ⟨x', h1, h2⟩ := ih _ m
    obtain ⟨x'', h3, h4⟩ := ih' _ m'
    cases x' with
    | many ss => exact absurd h2 id
    | one s =>
      cases x'' with
      | one s => exact absurd h4 id
      | many ss =>
        refine ⟨_, .more h1 h3, ?_⟩
        have h2 : unplacedSel s = _ := h2
        have h4 : unplacedSels ss = _ := h4
        simp only [SameSelPiece, unplacedSels, h2, h4]

theorem set_moved {pos : Pos} {items : List Selection} {ts ts' : Toks} (h : IsSelectionSet pos items ts)
    (m : Moved ts ts') : ∃ pos' items', IsSelectionSet pos' items' ts' ∧ unplacedSels items' = unplacedSels items := by
  obtain ⟨p', inner, h, rfl⟩ := h
  have k := moved_cons m; clear m; obtain ⟨p, r, rfl, m⟩ := k
  have k := moved_append m; clear m; obtain ⟨a, b, rfl, m, m'⟩ := k
  have k := moved_one m'; clear m'; obtain ⟨p'', rfl⟩ := k
  obtain ⟨x', h1, h2⟩ := selects_moved h _ m
  cases x' with
  | one s => exact absurd h2 id
  | many ss => exact ⟨p, ss, ⟨p'', a, h1, rfl⟩, h2⟩

theorem varTy_moved {t : VarTy} {ts : Toks} (h : IsVarTy t ts) : ∀ ts', Moved ts ts' → IsVarTy t ts' := by
  induction h with
  | named => intro ts' m; have k := moved_one m; clear m; obtain ⟨p, rfl⟩ := k; exact .named
  | list _ ih =>
    intro ts' m
    have k := moved_cons m; clear m; obtain ⟨p, r, rfl, m⟩ := k
    have k := moved_append m; clear m; obtain ⟨a, b, rfl, m, m'⟩ := k
    have k := moved_one m'; clear m'; obtain ⟨p', rfl⟩ := k
    exact .list (ih _ m)
  | nonNull _ hn ih =>
    intro ts' m
    have k := moved_append m; clear m; obtain ⟨a, b, rfl, m, m'⟩ := k
    have k := moved_one m'; clear m'; obtain ⟨p', rfl⟩ := k
    exact .nonNull (ih _ m) hn

theorem default_moved {d : Option Value} {ts ts' : Toks} (h : IsDefault d ts) (m : Moved ts ts') : IsDefault d ts' := by
  cases h with
  | none => rw [moved_nil m]; exact .none
  | some hv =>
    have k := moved_cons m; clear m; obtain ⟨p, r, rfl, m⟩ := k
    exact .some (val_moved hv _ m)

theorem varDef_moved {v : VarDef} {ts ts' : Toks} (h : IsVarDef v ts) (m : Moved ts ts') :
    ∃ v', IsVarDef v' ts' ∧ unplacedVar v' = unplacedVar v := by
  cases h with
  | mk ht hd =>
    have k := moved_cons m; clear m; obtain ⟨pos, r, rfl, m⟩ := k
    have k := moved_cons m; clear m; obtain ⟨p, r, rfl, m⟩ := k
    have k := moved_cons m; clear m; obtain ⟨p', r, rfl, m⟩ := k
    have k := moved_append m; clear m; obtain ⟨a, b, rfl, m, m'⟩ := k
    exact ⟨_, .mk (varTy_moved ht _ m) (default_moved hd m'), rfl⟩

theorem varDefs_moved {vs : List VarDef} {ts : Toks} (h : IsVarDefs vs ts) :
    ∀ ts', Moved ts ts' → ∃ vs', IsVarDefs vs' ts' ∧ vs'.map unplacedVar = vs.map unplacedVar := by
  induction h with
  | last hv =>
    intro ts' m
    obtain ⟨v', h1, h2⟩ := varDef_moved hv m
    exact ⟨_, .last h1, by simp [h2]⟩
  | more hv _ ih =>
    intro ts' m
    have k := moved_append m; clear m; obtain ⟨a, b, rfl, m, m'⟩ := k
    obtain ⟨v', h1, h2⟩ := varDef_moved hv m
    obtain ⟨vs', h3, h4⟩ := ih _ m'
    exact ⟨_, .more h1 h3, by simp [h2, h4]⟩

theorem variables_moved {vs : List VarDef} {ts ts' : Toks} (h : IsVariables vs ts) (m : Moved ts ts') :
    ∃ vs', IsVariables vs' ts' ∧ vs'.map unplacedVar = vs.map unplacedVar := by
  cases h with
  | none => rw [moved_nil m]; exact ⟨_, .none, rfl⟩
  | some hv =>
    have k := moved_cons m; clear m; obtain ⟨p, r, rfl, m⟩ := k
    have k := moved_append m; clear m; obtain ⟨a, b, rfl, m, m'⟩ := k
    have k := moved_one m'; clear m'; obtain ⟨p', rfl⟩ := k
    obtain ⟨vs', h1, h2⟩ := varDefs_moved hv _ m
    exact ⟨_, .some h1, h2⟩

theorem opName_moved {n : Option String} {ts ts' : Toks} (h : IsOpName n ts) (m : Moved ts ts') : IsOpName n ts' := by
  cases h with
  | none => rw [moved_nil m]; exact .none
  | some => have k := moved_one m; clear m; obtain ⟨p, rfl⟩ := k; exact .some

theorem definition_moved {d : Definition} {ts ts' : Toks} (h : IsDefinition d ts) (m : Moved ts ts') :
    ∃ d', IsDefinition d' ts' ∧ unplaced d' = unplaced d := by
  cases h with
  | selectionSet hs =>
    obtain ⟨pos', items', h1, h2⟩ := set_moved hs m
    exact ⟨_, .selectionSet h1, by simp only [unplaced, h2]⟩
  | operation hn hv hd hs =>
    have k := moved_cons m; clear m; obtain ⟨pos, r, rfl, m⟩ := k
    have k := moved_append m; clear m; obtain ⟨a, b, rfl, m, m'⟩ := k
    have k := moved_append m'; clear m'; obtain ⟨b, c, rfl, m', m''⟩ := k
    have k := moved_append m''; clear m''; obtain ⟨c, d, rfl, m'', m₃⟩ := k
    obtain ⟨vs', h1, h2⟩ := variables_moved hv m'
    obtain ⟨q, items', h3, h4⟩ := set_moved hs m₃
    exact ⟨_, .operation (opName_moved hn m) h1 (dirs_moved hd _ m'') h3, by simp only [unplaced, h2, h4]⟩
  | fragment hd hs =>
    have k := moved_cons m; clear m; obtain ⟨pos, r, rfl, m⟩ := k
    have k := moved_cons m; clear m; obtain ⟨p, r, rfl, m⟩ := k
    have k := moved_cons m; clear m; obtain ⟨p', r, rfl, m⟩ := k
    have k := moved_cons m; clear m; obtain ⟨p'', r, rfl, m⟩ := k
    have k := moved_append m; clear m; obtain ⟨a, b, rfl, m, m'⟩ := k
    obtain ⟨q, items', h3, h4⟩ := set_moved hs m'
    exact ⟨_, .fragment (dirs_moved hd _ m) h3, by simp only [unplaced, h4]⟩

theorem document_moved {ds : Document} {ts : Toks} (h : IsDocument ds ts) :
    ∀ ts', Moved ts ts' → ∃ ds', IsDocument ds' ts' ∧ ds'.map unplaced = ds.map unplaced := by
  induction h with
  | last hd =>
    intro ts' m
    obtain ⟨d', h1, h2⟩ := definition_moved hd m
    exact ⟨_, .last h1, by simp [h2]⟩
  | more hd _ ih =>
    intro ts' m
    have k := moved_append m; clear m; obtain ⟨a, b, rfl, m, m'⟩ := k
    obtain ⟨d', h1, h2⟩ := definition_moved hd m
    obtain ⟨ds', h3, h4⟩ := ih _ m'
    exact ⟨_, .more h1 h3, by simp [h2, h4]⟩

theorem tokens_anywhere {place place' : List Char → Pos} {cs : List Char} {ts : Toks} (h : TokensOf place cs ts) :
    ∃ ts', TokensOf place' cs ts' ∧ Moved ts ts' := by
  induction h with
  | done hg => exact ⟨[], .done hg, rfl⟩
  | more hg ht hc _ ih =>
    obtain ⟨ts', h1, h2⟩ := ih
    refine ⟨_, .more hg ht hc h1, ?_⟩
    simp only [Moved, List.map_cons] at h2 ⊢
    rw [h2]

mutual
theorem renamed_of_unplaced : ∀ (s s' : Selection), unplacedSel s' = unplacedSel s → RenamedSel id s s'
  | .field _ al n args dirs items, s', h => by
    cases s' with
    | field pos' al' n' args' dirs' items' =>
      simp only [unplacedSel, Selection.field.injEq] at h
      obtain ⟨_, rfl, rfl, rfl, rfl, h⟩ := h
      exact .field (renamedSels_of_unplaced items items' h)
    | «inline» => simp [unplacedSel] at h
    | spread => simp [unplacedSel] at h
  | .inline _ cond dirs items, s', h => by
    cases s' with
    | «inline» pos' cond' dirs' items' =>
      simp only [unplacedSel, Selection.inline.injEq] at h
      obtain ⟨_, rfl, rfl, h⟩ := h
      exact .inline (renamedSels_of_unplaced items items' h)
    | field => simp [unplacedSel] at h
    | spread => simp [unplacedSel] at h
  | .spread _ n dirs, s', h => by
    cases s' with
    | spread pos' n' dirs' =>
      simp only [unplacedSel, Selection.spread.injEq] at h
      obtain ⟨_, rfl, rfl⟩ := h
      exact .spread
    | field => simp [unplacedSel] at h
    | «inline» => simp [unplacedSel] at h
theorem renamedSels_of_unplaced : ∀ (l l' : List Selection), unplacedSels l' = unplacedSels l → RenamedSels id l l'
  | [], l', h => by
    cases l' with
    | nil => exact .nil
    | cons => simp [unplacedSels] at h
  | s :: rest, l', h => by
    cases l' with
    | nil => simp [unplacedSels] at h
    | cons s' rest' =>
      simp only [unplacedSels, List.cons.injEq] at h
      exact .cons (renamed_of_unplaced s s' h.1) (renamedSels_of_unplaced rest rest' h.2)
end

theorem renamedDef_of_unplaced {d d' : Definition} (h : unplaced d' = unplaced d) : RenamedDef id d d' := by
  cases d with
  | selectionSet pos items =>
    cases d' with
    | selectionSet pos' items' =>
      simp only [unplaced, Definition.selectionSet.injEq] at h
      exact .selectionSet (renamedSels_of_unplaced _ _ h.2)
    | operation => simp [unplaced] at h
    | fragment => simp [unplaced] at h
  | operation kw pos name vars dirs items =>
    cases d' with
    | operation kw' pos' name' vars' dirs' items' =>
      simp only [unplaced, Definition.operation.injEq] at h
      obtain ⟨rfl, _, rfl, hv, rfl, hi⟩ := h
      refine .operation ?_ (renamedSels_of_unplaced _ _ hi)
      have := congrArg (List.map declared) hv
      rw [List.map_map, List.map_map] at this
      exact this.symm
    | selectionSet => simp [unplaced] at h
    | fragment => simp [unplaced] at h
  | fragment f =>
    cases d' with
    | fragment f' =>
      simp only [unplaced, Definition.fragment.injEq, FragmentDef.mk.injEq] at h
      obtain ⟨_, h1, h2, h3, h4⟩ := h
      exact .fragment ⟨h1, h2, renamedSels_of_unplaced _ _ h4⟩
    | selectionSet => simp [unplaced] at h
    | operation => simp [unplaced] at h

theorem dataName_of_unplaced {d d' : Definition} (h : unplaced d' = unplaced d) : dataName d' = dataName d := by
  have e : ∀ d, dataName (unplaced d) = dataName d := by
    intro d
    cases d with
    | operation kw pos name vars dirs items => cases kw <;> cases name <;> rfl
    | selectionSet => rfl
    | fragment => rfl
  rw [← e d', h, e d]

end Qlc
